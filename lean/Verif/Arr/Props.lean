import Verif.Arr.Model

/-!
# C74: every format denotes the same points
-/

namespace Verif.Arr
variable {K : Type} {dim : Option Nat}

theorem mapM_map_some {α β γ : Type} (f : β → Option γ) (g : α → β) (k : α → γ) (h : ∀ a, f (g a) = some (k a)) (l : List α) :
    (l.map g).mapM f = some (l.map k) := by
  induction l with
  | nil => rfl
  | cons a l ih => simp [List.mapM_cons, h, ih]

theorem mapM_cons_none {β γ : Type} (f : β → Option γ) (a : β) (l : List β) (h : f a = none) : (a :: l).mapM f = none := by
  simp [List.mapM_cons, h]

theorem stack_rows (d : Nat) (ps : List (List K)) (h : ∀ p ∈ ps, p.length = d) (hne : ps ≠ []) :
    stack (ps.map (fun p => (⟨[d], p⟩ : Nd K))) = .ok ⟨[ps.length, d], ps.flatten⟩ := by
  match ps, hne with
  | p :: ps, _ =>
    have : (ps.map (fun p => (⟨[d], p⟩ : Nd K))).all (fun b => decide (b.shape = [d])) = true := by simp
    simp [stack, List.map_map, Function.comp_def]

theorem tuples_rows (d : Nat) (ps : List (List K)) (h : ∀ p ∈ ps, p.length = d) : ps.map ofTuple = ps.map (fun p => (⟨[d], p⟩ : Nd K)) :=
  List.map_congr_left fun p hp => by simp [ofTuple, h p hp]

/-- **C74** (what holds).  Whatever the format, the result is the `(n, d)` array with the points as rows: for vertices, tuples, numbers, lists of these
(not lists of numbers, and not the empty list), vectors (not of length one) and matrices. -/
theorem C74_convert_partial {x : Inp K} {d : Nat} {ps : List (List K)} (h : Means dim x d ps) (hd : dim = none ∨ dim = some d) (hd2 : d = 1 ∨ d = 2)
    (h0 : x ≠ .list []) (h1 : ¬OneVector x) (h2 : ¬NumberList x) : convert dim x = .ok (table d ps) := by
  cases h with
  | vertices ps hp =>
    have hne : ps ≠ [] := fun e => h0 (by simp [e])
    simp only [convert, ofList]
    rw [mapM_map_some asVertex Item.vertex ofTuple (fun _ => rfl), tuples_rows d ps hp]
    simp only []
    rw [stack_rows d ps hp hne]
    rfl
  | tuples ps hp =>
    match ps, h0 with
    | [], h0 => exact absurd rfl h0
    | p :: ps, _ =>
      simp only [convert, ofList]
      rw [List.map_cons, mapM_cons_none _ _ _ rfl]
      simp only []
      rw [← List.map_cons, mapM_map_some asTuple Item.tuple ofTuple (fun _ => rfl), tuples_rows d _ hp]
      simp only []
      rw [stack_rows d _ hp (by simp)]
      rfl
  | numbers xs =>
    match xs with
    | [] => exact absurd rfl h0
    | y :: l => exact absurd ⟨y, _, rfl⟩ h2
  | arrays ps hp =>
    match ps, h0 with
    | [], h0 => exact absurd rfl h0
    | p :: ps, _ =>
      simp only [convert, ofList]
      rw [List.map_cons, mapM_cons_none _ _ _ rfl]
      simp only []
      rw [mapM_cons_none _ _ _ rfl]
      simp only []
      rw [← List.map_cons (f := fun p => Item.arr (⟨[d], p⟩ : Nd K)), mapM_map_some asArr _ (fun p => (⟨[d], p⟩ : Nd K)) (fun _ => rfl)]
      simp only []
      rw [stack_rows d _ hp (by simp)]
      rfl
  | vertex p => simp [convert, table]
  | num x => simp [convert, hd, table]
  | tuple p =>
    match p, hd2 with
    | [x], _ => simp [convert, table]
    | [x, y], _ => simp [convert, table]
    | [], h => simp at h
    | _ :: _ :: _ :: _, h => simp at h
  | vector xs hx =>
    have hn1 : xs.length ≠ 1 := by
      intro e
      match xs, e with
      | [y], _ => exact h1 ⟨y, rfl⟩
    have hdim : xs.length = 2 → dim ≠ some 2 := fun e e' => hx ⟨e, e'⟩
    have hf : (xs.map (fun x => [x])).flatten = xs := by
      clear hx hn1 hdim h0 h1 h2
      induction xs with
      | nil => rfl
      | cons a l ih => simpa using ih
    by_cases h2 : xs.length = 2
    · simp [convert, ofArr, hn1, h2, hdim h2, newAxis, Except.map, table, hf, bind, Except.bind]
    · simp [convert, ofArr, hn1, h2, newAxis, Except.map, table, hf, bind, Except.bind]
  | pair x y hx => simp [convert, ofArr, hx, Except.map, table, bind, Except.bind]
  | matrix ps hp =>
    have : d ≤ 2 := by omega
    simp [convert, ofArr, this, Except.map, table]

/-- The array determines the points. -/
theorem table_inj {d : Nat} {ps qs : List (List K)} (hd : 0 < d) (hp : ∀ p ∈ ps, p.length = d) (hq : ∀ p ∈ qs, p.length = d) (h : table d ps = table d qs) : ps = qs := by
  have h' : ps.flatten = qs.flatten ∧ ps.length = qs.length := by
    simp only [table, Out.arr.injEq, Nd.mk.injEq, List.cons.injEq] at h
    exact ⟨h.2, h.1.1⟩
  obtain ⟨hf, hl⟩ := h'
  clear h
  induction ps generalizing qs with
  | nil => match qs, hl with | [], _ => rfl
  | cons p ps ih =>
    match qs, hl with
    | q :: qs, hl =>
      rw [List.flatten_cons, List.flatten_cons] at hf
      obtain ⟨e1, e2⟩ := List.append_inj hf ((hp p List.mem_cons_self).trans (hq q List.mem_cons_self).symm)
      rw [e1, ih (fun r hr => hp r (List.mem_cons_of_mem _ hr)) (fun r hr => hq r (List.mem_cons_of_mem _ hr)) e2 (by simpa using hl)]

theorem means_len {x : Inp K} {d : Nat} {ps : List (List K)} (h : Means dim x d ps) : ∀ p ∈ ps, p.length = d := by
  cases h with
  | vertices ps hp => exact hp
  | tuples ps hp => exact hp
  | numbers xs => intro p hp; obtain ⟨y, _, rfl⟩ := List.mem_map.1 hp; rfl
  | arrays ps hp => exact hp
  | vertex p => simp
  | num x => simp
  | tuple p => simp
  | vector xs hx => intro p hp; obtain ⟨y, _, rfl⟩ := List.mem_map.1 hp; rfl
  | pair x y hx => simp
  | matrix ps hp => exact hp

/-- **C74** (formats agree).  Two inputs are converted to the same array exactly if they stand for the same points. -/
theorem C74_same_partial {x x' : Inp K} {d : Nat} {ps ps' : List (List K)} (h : Means dim x d ps) (h' : Means dim x' d ps') (hd : dim = none ∨ dim = some d)
    (hd2 : d = 1 ∨ d = 2) (h0 : x ≠ .list []) (h1 : ¬OneVector x) (h2 : ¬NumberList x) (h0' : x' ≠ .list []) (h1' : ¬OneVector x') (h2' : ¬NumberList x') :
    (∃ a, convert dim x = .ok a ∧ convert dim x' = .ok a) ↔ ps = ps' := by
  rw [C74_convert_partial h hd hd2 h0 h1 h2, C74_convert_partial h' hd hd2 h0' h1' h2']
  constructor
  · rintro ⟨a, e1, e2⟩
    cases e1
    exact (table_inj (by omega) (means_len h') (means_len h) (Except.ok.inj e2)).symm
  · rintro rfl
    exact ⟨_, rfl, rfl⟩

theorem stack_ragged {α : Type} (f : α → Nd K) {l : List α} {a b : α} (ha : a ∈ l) (hb : b ∈ l) (h : (f a).shape ≠ (f b).shape) :
    stack (l.map f) = .error .value := by
  cases l with
  | nil => simp at ha
  | cons c l =>
    rw [List.map_cons, stack, if_neg]
    intro hall
    have : ∀ d ∈ c :: l, (f d).shape = (f c).shape := by
      intro d hd
      rcases List.mem_cons.1 hd with rfl | hd
      · rfl
      · simpa using List.all_eq_true.1 hall (f d) (List.mem_map.2 ⟨d, hd, rfl⟩)
    exact h ((this a ha).trans (this b hb).symm)

/-- **C74** (points of different dimensions).  A list of vertices, tuples or arrays with different numbers of coordinates is rejected. -/
theorem C74_ragged (dim : Option Nat) {ps : List (List K)} {p q : List K} (hp : p ∈ ps) (hq : q ∈ ps) (h : p.length ≠ q.length) :
    convert dim (.list (ps.map .vertex)) = .error .value ∧ convert dim (.list (ps.map .tuple)) = .error .value ∧
    convert dim (.list (ps.map fun p => .arr ⟨[p.length], p⟩)) = .error .value := by
  have hne : ps ≠ [] := List.ne_nil_of_mem hp
  obtain ⟨p₀, ps', rfl⟩ := List.exists_cons_of_ne_nil hne
  have hs : ∀ f : List K → Nd K, (∀ p, (f p).shape = [p.length]) → stack ((p₀ :: ps').map f) = .error .value := fun f hf =>
    stack_ragged f hp hq (by rw [hf, hf]; simpa using h)
  refine ⟨?_, ?_, ?_⟩
  · rw [convert, ofList, mapM_map_some asVertex .vertex ofTuple (fun _ => rfl)]
    show Except.map _ (stack _) = _
    rw [hs ofTuple (fun _ => rfl)]; rfl
  · have h1 : ((p₀ :: ps').map (Item.tuple (K := K))).mapM asVertex = none := mapM_cons_none _ _ _ rfl
    rw [convert, ofList, h1, mapM_map_some asTuple .tuple ofTuple (fun _ => rfl)]
    show Except.map _ (stack _) = _
    rw [hs ofTuple (fun _ => rfl)]; rfl
  · have h1 : ((p₀ :: ps').map (fun p => Item.arr (K := K) ⟨[p.length], p⟩)).mapM asVertex = none := mapM_cons_none _ _ _ rfl
    have h2 : ((p₀ :: ps').map (fun p => Item.arr (K := K) ⟨[p.length], p⟩)).mapM asTuple = none := mapM_cons_none _ _ _ rfl
    rw [convert, ofList, h1, h2, mapM_map_some asArr (fun p => Item.arr (K := K) ⟨[p.length], p⟩) ofTuple (fun _ => rfl)]
    show Except.map _ (stack _) = _
    rw [hs ofTuple (fun _ => rfl)]; rfl

example : convert none (.list [.tuple [0, 1], .tuple [2]]) = .error .value ∧ ([0, 1] : List Nat).length ≠ ([2] : List Nat).length := by decide

/-- Inputs that `convert_to_array` reads correctly. -/
def Good (x : Inp K) : Prop := x ≠ .list [] ∧ ¬OneVector x ∧ ¬NumberList x

theorem mapM_ok {α β ε : Type} {f : α → Except ε β} {g : α → β} {l : List α} (h : ∀ a ∈ l, f a = .ok (g a)) : l.mapM f = .ok (l.map g) := by
  induction l with
  | nil => rfl
  | cons a l ih =>
    rw [List.mapM_cons, h a List.mem_cons_self, ih fun b hb => h b (List.mem_cons_of_mem _ hb)]
    rfl

/-- **C74** (several variables).  For a function of several variables the arguments are converted one by one; the call is rejected exactly if
they have different numbers of points. -/
theorem C74_parse_partial {d : Nat} (hd : dim = none ∨ dim = some d) (hd2 : d = 1 ∨ d = 2) (l : List (Inp K × List (List K)))
    (h : ∀ y ∈ l, Means dim y.1 d y.2 ∧ Good y.1) :
    parseX dim (l.map (·.1)) = if ∀ y ∈ l, ∀ z ∈ l, y.2.length = z.2.length then .ok (l.map (fun y => table d y.2)) else .error .assertion := by
  have e1 : (l.map (·.1)).mapM (convert dim) = .ok (l.map (fun y => table d y.2)) := by
    rw [List.mapM_map]
    exact mapM_ok fun y hy => C74_convert_partial (h y hy).1 hd hd2 (h y hy).2.1 (h y hy).2.2.1 (h y hy).2.2.2
  have e2 : (l.map (fun y => table d y.2)).mapM rows = .ok (l.map (fun y => y.2.length)) := by
    rw [List.mapM_map]
    exact mapM_ok fun y _ => rfl
  have e3 : (l.map (fun y => y.2.length)).all (fun n => decide (some n = (l.map (fun y => y.2.length)).head?)) =
      decide (∀ y ∈ l, ∀ z ∈ l, y.2.length = z.2.length) := by
    rw [Bool.eq_iff_iff, List.all_eq_true, decide_eq_true_iff]
    match l with
    | [] => simp
    | y :: l =>
      constructor
      · intro hh a ha b hb
        have h1 := hh _ (List.mem_map.2 ⟨a, ha, rfl⟩)
        have h2 := hh _ (List.mem_map.2 ⟨b, hb, rfl⟩)
        simp only [decide_eq_true_eq] at h1 h2
        exact Option.some.inj (h1.trans h2.symm)
      · intro hh n hn
        obtain ⟨a, ha, rfl⟩ := List.mem_map.1 hn
        simp only [decide_eq_true_eq, List.map_cons, List.head?_cons]
        rw [hh a ha y List.mem_cons_self]
  unfold parseX
  rw [e1]
  simp only [bind, Except.bind]
  rw [e2]
  simp only []
  rw [e3]
  by_cases hc : ∀ y ∈ l, ∀ z ∈ l, y.2.length = z.2.length
  · rw [if_pos hc, if_pos (by simpa using hc)]
  · rw [if_neg hc, if_neg (by simpa using hc)]

/-- Five ways to write the points (0,1), (2,3). -/
example : ∀ x ∈ [Inp.list [.vertex [0, 1], .vertex [2, 3]], .list [.tuple [0, 1], .tuple [2, 3]], .list [.arr ⟨[2], [0, 1]⟩, .arr ⟨[2], [2, 3]⟩],
    .arr ⟨[2, 2], [0, 1, 2, (3 : ℕ)]⟩], Means none x 2 [[0, 1], [2, 3]] ∧ Good x ∧ convert none x = .ok (.arr ⟨[2, 2], [0, 1, 2, 3]⟩) := by
  have hl : ∀ p ∈ [[0, 1], [2, (3 : ℕ)]], p.length = 2 := by decide
  have hg : ∀ x : Inp ℕ, (∀ l, x = .list l → ∃ a l', l = a :: l' ∧ ∀ y, a ≠ .num y) → (∀ y, x ≠ .arr ⟨[1], [y]⟩) → Good x := by
    intro x h1 h2
    refine ⟨fun e => ?_, fun ⟨y, e⟩ => h2 y e, fun ⟨y, l, e⟩ => ?_⟩
    · obtain ⟨a, l', e', _⟩ := h1 _ e; cases e'
    · obtain ⟨a, l', e', h⟩ := h1 _ e; cases e'; exact h y rfl
  intro x hx
  simp only [List.mem_cons, List.mem_singleton, List.not_mem_nil, or_false] at hx
  rcases hx with rfl | rfl | rfl | rfl
  · exact ⟨.vertices _ hl, hg _ (fun l e => by cases e; exact ⟨_, _, rfl, fun y h => by cases h⟩) (fun y e => by cases e), rfl⟩
  · exact ⟨.tuples _ hl, hg _ (fun l e => by cases e; exact ⟨_, _, rfl, fun y h => by cases h⟩) (fun y e => by cases e), rfl⟩
  · exact ⟨.arrays _ hl, hg _ (fun l e => by cases e; exact ⟨_, _, rfl, fun y h => by cases h⟩) (fun y e => by cases e), rfl⟩
  · exact ⟨.matrix _ hl, hg _ (fun l e => by cases e) (fun y e => by simp at e), rfl⟩

/-- **C74 does not hold for lists of numbers**, although they are documented: an exception, for every such list. -/
theorem C74_numbers_violated (dim : Option Nat) (x : K) (xs : List K) :
    Means dim (.list ((x :: xs).map .num)) 1 ((x :: xs).map (fun y => [y])) ∧ convert dim (.list ((x :: xs).map .num)) = .error .exception := by
  refine ⟨.numbers _, ?_⟩
  simp only [convert, ofList, List.map_cons]
  rw [mapM_cons_none _ _ _ rfl]
  simp only []
  rw [mapM_cons_none _ _ _ rfl]
  simp only []
  rw [mapM_cons_none _ _ _ rfl]
  rfl

/-- **C74 does not hold for a vector with one entry**: it becomes an array with three axes. -/
theorem C74_single_violated (x : K) : Means none (.arr ⟨[1], [x]⟩) 1 [[x]] ∧ convert none (.arr ⟨[1], [x]⟩) = .ok (.arr ⟨[1, 1, 1], [x]⟩) ∧
    convert (some 1) (.arr ⟨[1], [x]⟩) = .ok (.arr ⟨[1, 1, 1], [x]⟩) ∧ (Out.arr ⟨[1, 1, 1], [x]⟩ : Out K) ≠ table 1 [[x]] :=
  ⟨.vector [x] (by simp), rfl, rfl, by simp [table]⟩

/-- **C74 does not hold for the empty list**: the result has one axis only, whatever the dimension. -/
theorem C74_empty_violated (dim : Option Nat) (d : Nat) : Means (K := K) dim (.list []) d [] ∧ convert (K := K) dim (.list []) = .ok (.arr ⟨[0], []⟩) ∧
    (Out.arr ⟨[0], []⟩ : Out K) ≠ table d [] :=
  ⟨.vertices [] (by simp), rfl, by simp [table]⟩

/-- **C74, contradictory dimensions** are not noticed: two-dimensional points where one-dimensional ones are required. -/
theorem C74_dim_violated (x y : K) : Means (some 1) (.tuple [x, y]) 2 [[x, y]] ∧ convert (some 1) (.tuple [x, y]) = .ok (table 2 [[x, y]]) ∧
    convert (some 1) (.arr ⟨[1, 2], [x, y]⟩) = .ok (table 2 [[x, y]]) := ⟨.tuple [x, y], rfl, rfl⟩

end Verif.Arr
