import Verif.Arr.Explicit

/-!
# C75: explicit functions are lists of rules
-/

namespace Verif.Arr.Exp
variable {R P α : Type}

/-- The lists of functions (`used`) and the lists of the user (`own`) are different and have these contents. -/
structure HeapRel (h : List (List α)) (used own : List Nat) (U O : List (List α)) : Prop where
  nodup : (used ++ own).Nodup
  lt : ∀ a ∈ used ++ own, a < h.length
  used_ : used.map (fun a => h.getD a []) = U
  own_ : own.map (fun a => h.getD a []) = O

variable {h : List (List α)} {used own : List Nat} {U O : List (List α)} {l : List α}

theorem getD_append (h : List (List α)) (l : List α) {a : Nat} (ha : a < h.length) : (h ++ [l]).getD a [] = h.getD a [] := by
  simp [List.getD, List.getElem?_append_left ha]

theorem getD_new (h : List (List α)) (l : List α) : (h ++ [l]).getD h.length [] = l := by simp [List.getD]

theorem HeapRel.garbage (r : HeapRel h used own U O) (l : List α) : HeapRel (h ++ [l]) used own U O := by
  refine ⟨r.nodup, fun a ha => ?_, ?_, ?_⟩
  · have := r.lt a ha; simp; omega
  · rw [← r.used_]
    exact List.map_congr_left fun a ha => getD_append h l (r.lt a (List.mem_append_left _ ha))
  · rw [← r.own_]
    exact List.map_congr_left fun a ha => getD_append h l (r.lt a (List.mem_append_right _ ha))

theorem HeapRel.newOwn (r : HeapRel h used own U O) (l : List α) : HeapRel (h ++ [l]) used (own ++ [h.length]) U (O ++ [l]) := by
  have g := r.garbage l
  refine ⟨?_, fun a ha => ?_, g.used_, ?_⟩
  · rw [← List.append_assoc, List.nodup_append]
    exact ⟨r.nodup, by simp, fun a ha b hb e => by
      have := r.lt a ha
      rw [List.mem_singleton] at hb
      omega⟩
  · rw [← List.append_assoc, List.mem_append] at ha
    rcases ha with h1 | h1
    · exact g.lt a h1
    · rw [List.mem_singleton] at h1; subst h1; simp
  · rw [List.map_append, g.own_, List.map_singleton, getD_new]

theorem HeapRel.newUsed (r : HeapRel h used own U O) (l : List α) : HeapRel (h ++ [l]) (used ++ [h.length]) own (U ++ [l]) O := by
  have g := r.garbage l
  refine ⟨?_, fun a ha => ?_, ?_, g.own_⟩
  · have hp : (used ++ own ++ [h.length]).Nodup := (by
      rw [List.nodup_append]
      exact ⟨r.nodup, by simp, fun a ha b hb e => by
        have := r.lt a ha
        rw [List.mem_singleton] at hb
        omega⟩)
    refine (List.Perm.nodup_iff ?_).1 hp
    rw [List.append_assoc, List.append_assoc]
    exact (List.perm_append_comm).append_left used
  · rw [List.append_assoc, List.mem_append, List.mem_append] at ha
    rcases ha with h1 | h1 | h1
    · exact g.lt a (List.mem_append_left _ h1)
    · rw [List.mem_singleton] at h1; subst h1; simp
    · exact g.lt a (List.mem_append_right _ h1)
  · rw [List.map_append, g.used_, List.map_singleton, getD_new]

theorem HeapRel.setUsed (r : HeapRel h used own U O) (l : List α) (k : Nat) : HeapRel (h ++ [l]) (used.set k h.length) own (U.set k l) O := by
  have g := r.garbage l
  have hn := List.nodup_append.1 r.nodup
  have hlt : ∀ a ∈ used.set k h.length, a = h.length ∨ a ∈ used := fun a ha => (List.mem_or_eq_of_mem_set ha).symm
  refine ⟨List.nodup_append.2 ⟨?_, hn.2.1, fun a ha b hb e => ?_⟩, fun a ha => ?_, ?_, g.own_⟩
  · refine hn.1.set ?_
    intro hm
    exact absurd (r.lt _ (List.mem_append_left _ hm)) (Nat.lt_irrefl _)
  · rcases hlt a ha with h1 | h1
    · have := r.lt b (List.mem_append_right _ hb); omega
    · exact hn.2.2 a h1 b hb e
  · rcases List.mem_append.1 ha with h1 | h1
    · rcases hlt a h1 with h2 | h2
      · subst h2; simp
      · exact g.lt a (List.mem_append_left _ h2)
    · exact g.lt a (List.mem_append_right _ h1)
  · rw [List.map_set, g.used_, getD_new]

theorem getD_modify_ne (h : List (List α)) (g : List α → List α) {a b : Nat} (hab : a ≠ b) : (h.modify a g).getD b [] = h.getD b [] := by
  simp [List.getD, hab]

theorem getD_modify_eq (h : List (List α)) (g : List α → List α) {a : Nat} (ha : a < h.length) : (h.modify a g).getD a [] = g (h.getD a []) := by
  simp [List.getD, ha]

theorem map_modify_at (h : List (List α)) (g : List α → List α) : ∀ (L : List Nat) (k a : Nat), L.Nodup → L[k]? = some a → a < h.length →
    L.map (fun b => (h.modify a g).getD b []) = (L.map (fun b => h.getD b [])).modify k g := by
  intro L
  induction L with
  | nil => intro k a _ hk; simp at hk
  | cons b L ih =>
    intro k a hn hk ha
    obtain ⟨hb, hn⟩ := List.nodup_cons.1 hn
    match k with
    | 0 =>
      have e : b = a := by simpa using hk
      subst e
      simp only [List.map_cons, List.modify_zero_cons, getD_modify_eq h g ha]
      congr 1
      exact List.map_congr_left fun c hc => getD_modify_ne h g (fun e => hb (e ▸ hc))
    | k + 1 =>
      have hk' : L[k]? = some a := by simpa using hk
      simp only [List.map_cons, List.modify_succ_cons]
      rw [ih k a hn hk' ha, getD_modify_ne h g (a := a) (b := b) (fun e => hb (by rw [← e]; exact List.mem_of_getElem? hk'))]

theorem HeapRel.modUsed (r : HeapRel h used own U O) {k a : Nat} (hk : used[k]? = some a) (g : List α → List α) :
    HeapRel (h.modify a g) used own (U.modify k g) O := by
  have hm := List.mem_of_getElem? hk
  have hn := List.nodup_append.1 r.nodup
  refine ⟨r.nodup, fun b hb => by simpa using r.lt b hb, ?_, ?_⟩
  · rw [map_modify_at h g used k a hn.1 hk (r.lt a (List.mem_append_left _ hm)), r.used_]
  · rw [← r.own_]
    exact List.map_congr_left fun c hc => getD_modify_ne h g (fun e => hn.2.2 a hm c hc e)

theorem HeapRel.modOwn (r : HeapRel h used own U O) {k a : Nat} (hk : own[k]? = some a) (g : List α → List α) :
    HeapRel (h.modify a g) used own U (O.modify k g) := by
  have hm := List.mem_of_getElem? hk
  have hn := List.nodup_append.1 r.nodup
  refine ⟨r.nodup, fun b hb => by simpa using r.lt b hb, ?_, ?_⟩
  · rw [← r.used_]
    exact List.map_congr_left fun c hc => getD_modify_ne h g (fun e => hn.2.2 c hc a hm e.symm)
  · rw [map_modify_at h g own k a hn.2.1 hk (r.lt a (List.mem_append_right _ hm)), r.own_]

/-- The concrete state stands for the abstract one. -/
structure Rel (s : St R P) (S : Sp R P) : Prop where
  r : HeapRel s.rl (s.fs.map Prod.fst) s.ownR (S.funs.map (fun l => l.map Prod.fst)) S.rules
  p : HeapRel s.pl (s.fs.map Prod.snd) s.ownP (S.funs.map (fun l => l.map Prod.snd)) S.pars
  ne : ∀ l ∈ S.funs, l ≠ []

theorem Rel.new : Rel (St.new R P) ⟨[], [], []⟩ :=
  ⟨⟨by simp [St.new], by simp [St.new], rfl, rfl⟩, ⟨by simp [St.new], by simp [St.new], rfl, rfl⟩, by simp⟩

theorem Rel.len {s : St R P} {S : Sp R P} (h : Rel s S) : S.funs.length = s.fs.length := by
  have := congrArg List.length h.r.used_
  simpa using this.symm

theorem Rel.at {s : St R P} {S : Sp R P} (h : Rel s S) {k a b : Nat} (hk : s.fs[k]? = some (a, b)) :
    ∃ l, S.funs[k]? = some l ∧ l ≠ [] ∧ s.rl.getD a [] = l.map Prod.fst ∧ s.pl.getD b [] = l.map Prod.snd := by
  have hlt : k < s.fs.length := (List.getElem?_eq_some_iff.1 hk).1
  have hlt' : k < S.funs.length := by rw [h.len]; exact hlt
  have h1 := congrArg (fun z => z[k]?) h.r.used_
  have h2 := congrArg (fun z => z[k]?) h.p.used_
  simp only [List.getElem?_map, hk, Option.map_some, List.getElem?_eq_getElem hlt', Option.some.injEq] at h1 h2
  exact ⟨_, List.getElem?_eq_getElem hlt', h.ne _ (List.getElem_mem hlt'), h1, h2⟩

/-- One or two lists have been made, `l` last. -/
def AllocAt (h h' : List (List α)) (a : Nat) (l : List α) : Prop := (h' = h ++ [l] ∧ a = h.length) ∨ ∃ l0, h' = h ++ [l0] ++ [l] ∧ a = (h ++ [l0]).length

theorem AllocAt.new {h' : List (List α)} {a : Nat} (ha : AllocAt h h' a l) (r : HeapRel h used own U O) : HeapRel h' (used ++ [a]) own (U ++ [l]) O := by
  rcases ha with ⟨rfl, rfl⟩ | ⟨l0, rfl, rfl⟩
  · exact r.newUsed l
  · exact (r.garbage l0).newUsed l

theorem AllocAt.set {h' : List (List α)} {a : Nat} (ha : AllocAt h h' a l) (r : HeapRel h used own U O) (k : Nat) :
    HeapRel h' (used.set k a) own (U.set k l) O := by
  rcases ha with ⟨rfl, rfl⟩ | ⟨l0, rfl, rfl⟩
  · exact r.setUsed l k
  · exact (r.garbage l0).setUsed l k

theorem load_fresh (h : List (List α)) (own : List Nat) (O : List (List α)) (f : Arg α) (hf : f.fresh) :
    ∃ F, F ≠ [] ∧ f.value O = some F ∧ load h own f = .ok (h ++ [F], h.length) := by
  match f, hf with
  | .one a, _ => exact ⟨[a], by simp, rfl, rfl⟩
  | .lit l, hl => exact ⟨l, hl, rfl, rfl⟩

theorem match_zip {F : List R} {Q : List P} (h : 1 < F.length) (h' : 1 < Q.length) : match_ F Q = if F.length = Q.length then some (F.zip Q) else none := by
  match F, Q, h, h' with
  | _ :: _ :: _, _ :: _ :: _, _, _ => rfl

theorem pair_fresh (s : St R P) (RO : List (List R)) (PO : List (List P)) (f : Arg R) (p : Arg P) (hf : f.fresh) (hp : p.fresh) :
    ∃ F Q, f.value RO = some F ∧ p.value PO = some Q ∧
      ((match_ F Q = none ∧ ∃ e, pair s f p = .error e) ∨
       ∃ z hr hq a b, match_ F Q = some z ∧ z ≠ [] ∧ pair s f p = .ok ({ s with rl := hr, pl := hq }, a, b) ∧
        AllocAt s.rl hr a (z.map Prod.fst) ∧ AllocAt s.pl hq b (z.map Prod.snd)) := by
  obtain ⟨F, hF, f1, f2⟩ := load_fresh s.rl s.ownR RO f hf
  obtain ⟨Q, hQ, p1, p2⟩ := load_fresh s.pl s.ownP PO p hp
  refine ⟨F, Q, f1, p1, ?_⟩
  unfold pair
  rw [f2, p2]
  simp only [bind, Except.bind, getD_new]
  by_cases c1 : 1 < F.length
  · by_cases c2 : 1 < Q.length
    · rw [if_pos ⟨c1, c2⟩, match_zip c1 c2]
      by_cases c3 : F.length = Q.length
      · right
        rw [if_pos c3, if_pos c3]
        refine ⟨_, _, _, _, _, rfl, ?_, rfl, .inl ⟨?_, rfl⟩, .inl ⟨?_, rfl⟩⟩
        · intro e
          have := congrArg List.length e
          rw [List.length_zip, List.length_nil] at this
          omega
        · rw [List.map_fst_zip (by omega)]
        · rw [List.map_snd_zip (by omega)]
      · left
        rw [if_neg c3, if_neg c3]
        exact ⟨rfl, _, rfl⟩
    · rw [if_neg (fun h => c2 h.2), if_pos c1]
      match Q, hQ, c2 with
      | [q], _, _ =>
        right
        refine ⟨F.map (fun f => (f, q)), _, _, _, _, ?_, ?_, rfl, .inl ⟨?_, rfl⟩, .inr ⟨_, ?_, rfl⟩⟩
        · cases F <;> rfl
        · simpa using hF
        · simp [Function.comp_def]
        · simp [Function.comp_def]
      | _ :: _ :: _, _, c2 => simp at c2
  · match F, hF, c1 with
    | [f0], _, _ =>
      right
      rw [if_neg (fun h => by simp at h), if_neg (by simp)]
      by_cases c2 : 1 < Q.length
      · rw [if_pos c2]
        refine ⟨Q.map (fun q => (f0, q)), _, _, _, _, ?_, ?_, rfl, .inr ⟨_, ?_, rfl⟩, .inl ⟨?_, rfl⟩⟩
        · match Q, c2 with
          | _ :: _ :: _, _ => rfl
        · simpa using hQ
        · simp [Function.comp_def]
        · simp [Function.comp_def]
      · match Q, hQ, c2 with
        | [q], _, _ => exact ⟨[(f0, q)], _, _, _, _, rfl, by simp, rfl, .inl ⟨rfl, rfl⟩, .inl ⟨rfl, rfl⟩⟩
        | _ :: _ :: _, _, c2 => simp at c2
    | _ :: _ :: _, _, c1 => simp at c1

theorem set_same {β : Type} {L : List β} {k : Nat} {x : β} (hk : L[k]? = some x) : L.set k x = L := by
  obtain ⟨h1, rfl⟩ := List.getElem?_eq_some_iff.1 hk
  exact List.set_getElem_self h1

theorem set_eq_modify {β : Type} {L : List β} {k : Nat} {x : β} (hk : L[k]? = some x) (g : β → β) : L.set k (g x) = L.modify k g := by
  rw [List.modify_eq_set_getElem?, hk]
  rfl

theorem map_modify' {β γ : Type} (L : List β) (k : Nat) (m : β → γ) (g : β → β) (g' : γ → γ) (h : ∀ x, m (g x) = g' (m x)) : (L.modify k g).map m = (L.map m).modify k g' := by
  induction L generalizing k with
  | nil => cases k <;> rfl
  | cons a L ih =>
    cases k with
    | zero => simp [h]
    | succ k => simp [ih]

theorem mem_modify {β : Type} {L : List β} {k : Nat} {g : β → β} {x : β} (h : x ∈ L.modify k g) : x ∈ L ∨ ∃ y ∈ L, x = g y := by
  induction L generalizing k with
  | nil => cases k <;> simp at h
  | cons a L ih =>
    cases k with
    | zero =>
      simp at h
      rcases h with rfl | h
      · exact .inr ⟨a, by simp, rfl⟩
      · exact .inl (by simp [h])
    | succ k =>
      simp at h
      rcases h with rfl | h
      · exact .inl (by simp)
      · rcases ih h with h | ⟨y, hy, e⟩
        · exact .inl (by simp [h])
        · exact .inr ⟨y, by simp [hy], e⟩

/-- One call: it succeeds exactly if the specification accepts it, and leads to the same functions and lists. -/
theorem step_rel {s : St R P} {S : Sp R P} (h : Rel s S) (o : Op R P) (ho : o.fresh) :
    (∃ e, step s o = .error e ∧ spec S o = none) ∨ ∃ t T, step s o = .ok t ∧ spec S o = some T ∧ Rel t T := by
  have hl := h.len
  cases o with
  | mkR l => exact .inr ⟨_, _, rfl, rfl, h.r.newOwn l, h.p, h.ne⟩
  | mkP l => exact .inr ⟨_, _, rfl, rfl, h.r, h.p.newOwn l, h.ne⟩
  | appR i r =>
    have hlen : S.rules.length = s.ownR.length := by rw [← h.r.own_]; simp
    by_cases hi : i < s.ownR.length
    · right
      refine ⟨{ s with rl := s.rl.modify s.ownR[i] (· ++ [r]) }, { S with rules := S.rules.modify i (· ++ [r]) }, by simp only [step, List.getElem?_eq_getElem hi],
        by simp only [spec]; rw [if_pos (by omega)], h.r.modOwn (List.getElem?_eq_getElem hi) _, h.p, h.ne⟩
    · left
      refine ⟨.name, ?_, ?_⟩
      · simp only [step]; rw [List.getElem?_eq_none (by omega)]
      · simp only [spec]; rw [if_neg (by omega)]
  | new f p =>
    obtain ⟨F, Q, h1, h2, ⟨h3, e, h4⟩ | ⟨z, hr, hq, a, b, h3, hz, h4, h5, h6⟩⟩ := pair_fresh s S.rules S.pars f p ho.1 ho.2
    · left
      exact ⟨e, by simp only [step, h4]; rfl, by simp only [spec, h1, h2, h3, Option.bind_some, Option.map_none]⟩
    · right
      refine ⟨{ s with rl := hr, pl := hq, fs := s.fs ++ [(a, b)] }, { S with funs := S.funs ++ [z] }, by simp only [step, h4]; rfl,
        by simp only [spec, h1, h2, h3, Option.bind_some, Option.map_some], ?_, ?_, ?_⟩
      · have := h5.new h.r
        simpa using this
      · have := h6.new h.p
        simpa using this
      · intro l hl
        rcases List.mem_append.1 hl with h7 | h7
        · exact h.ne l h7
        · rw [List.mem_singleton] at h7; rw [h7]; exact hz
  | setRules k f p =>
    by_cases hk : k < s.fs.length
    · obtain ⟨F, Q, h1, h2, ⟨h3, e, h4⟩ | ⟨z, hr, hq, a, b, h3, hz, h4, h5, h6⟩⟩ := pair_fresh s S.rules S.pars f p ho.1 ho.2
      · left
        refine ⟨e, by simp only [step, List.getElem?_eq_getElem hk, h4]; rfl, ?_⟩
        simp only [spec, h1, h2, h3, Option.bind_some, Option.map_none, ite_self]
      · right
        refine ⟨{ s with rl := hr, pl := hq, fs := s.fs.set k (a, b) }, { S with funs := S.funs.set k z }, by simp only [step, List.getElem?_eq_getElem hk, h4]; rfl,
          by simp only [spec, h1, h2, h3, Option.bind_some, Option.map_some]; rw [if_pos (by omega)], ?_, ?_, ?_⟩
        · have := h5.set h.r k
          simpa [List.map_set] using this
        · have := h6.set h.p k
          simpa [List.map_set] using this
        · intro l hl
          rcases List.mem_or_eq_of_mem_set hl with h7 | h7
          · exact h.ne l h7
          · rw [h7]; exact hz
    · left
      refine ⟨.name, ?_, ?_⟩
      · simp only [step]; rw [List.getElem?_eq_none (by omega)]
      · simp only [spec]; rw [if_neg (by omega)]
  | setRule k f p pos => exact absurd ho id
  | addRule k f p =>
    by_cases hk : k < s.fs.length
    · right
      obtain ⟨a, b, hab⟩ : ∃ a b, s.fs[k]? = some (a, b) := ⟨_, _, List.getElem?_eq_getElem hk⟩
      have ha : (s.fs.map Prod.fst)[k]? = some a := by rw [List.getElem?_map, hab]; rfl
      have hb : (s.fs.map Prod.snd)[k]? = some b := by rw [List.getElem?_map, hab]; rfl
      refine ⟨{ s with rl := s.rl.modify a (· ++ [f]), pl := s.pl.modify b (· ++ [p]) }, { S with funs := S.funs.modify k (· ++ [(f, p)]) },
        by simp only [step, hab], by simp only [spec]; rw [if_pos (by omega)], ?_, ?_, ?_⟩
      · have := h.r.modUsed ha (· ++ [f])
        rw [← map_modify' S.funs k (fun l => l.map Prod.fst) (· ++ [(f, p)]) (· ++ [f]) (fun x => by simp)] at this
        exact this
      · have := h.p.modUsed hb (· ++ [p])
        rw [← map_modify' S.funs k (fun l => l.map Prod.snd) (· ++ [(f, p)]) (· ++ [p]) (fun x => by simp)] at this
        exact this
      · intro l hl
        rcases mem_modify hl with h7 | ⟨y, _, rfl⟩
        · exact h.ne l h7
        · simp
    · left
      refine ⟨.name, ?_, ?_⟩
      · simp only [step]; rw [List.getElem?_eq_none (by omega)]
      · simp only [spec]; rw [if_neg (by omega)]
  | setPars k p =>
    by_cases hk : k < s.fs.length
    · right
      obtain ⟨a, b, hab⟩ : ∃ a b, s.fs[k]? = some (a, b) := ⟨_, _, List.getElem?_eq_getElem hk⟩
      obtain ⟨l, l1, l2, l3, l4⟩ := h.at hab
      refine ⟨{ s with pl := s.pl ++ [(s.pl.getD b []).map (fun _ => p)], fs := s.fs.set k (a, s.pl.length) },
        { S with funs := S.funs.modify k (·.map fun z => (z.1, p)) }, by simp only [step, hab], by simp only [spec]; rw [if_pos (by omega)], ?_, ?_, ?_⟩
      · have e1 : (s.fs.set k (a, s.pl.length)).map Prod.fst = s.fs.map Prod.fst := by
          rw [List.map_set]
          exact set_same (by rw [List.getElem?_map, hab]; rfl)
        have e2 : (S.funs.modify k (fun l => l.map fun z => (z.1, p))).map (fun l => l.map Prod.fst) = S.funs.map (fun l => l.map Prod.fst) := by
          rw [map_modify' S.funs k (fun l => l.map Prod.fst) _ id (fun x => by simp [Function.comp_def])]
          simp
        show HeapRel s.rl ((s.fs.set k (a, s.pl.length)).map Prod.fst) _ _ _
        rw [e1, e2]
        exact h.r
      · have := h.p.setUsed ((s.pl.getD b []).map (fun _ => p)) k
        show HeapRel _ ((s.fs.set k (a, s.pl.length)).map Prod.snd) _ _ _
        rw [List.map_set, ← set_eq_modify l1, List.map_set]
        rw [l4] at this ⊢
        simpa [Function.comp_def] using this
      · intro l hl
        rcases mem_modify hl with h7 | ⟨y, hy, rfl⟩
        · exact h.ne l h7
        · simpa using h.ne y hy
    · left
      refine ⟨.name, ?_, ?_⟩
      · simp only [step]; rw [List.getElem?_eq_none (by omega)]
      · simp only [spec]; rw [if_neg (by omega)]
  | setPar k p pos =>
    by_cases hk : k < s.fs.length
    · obtain ⟨a, b, hab⟩ : ∃ a b, s.fs[k]? = some (a, b) := ⟨_, _, List.getElem?_eq_getElem hk⟩
      obtain ⟨l, l1, l2, l3, l4⟩ := h.at hab
      have hla : (s.rl.getD a []).length = l.length := by rw [l3]; simp
      have hlb : (s.pl.getD b []).length = l.length := by rw [l4]; simp
      by_cases hp : pos < l.length
      · right
        have ha : (s.fs.map Prod.fst)[k]? = some a := by rw [List.getElem?_map, hab]; rfl
        have hb : (s.fs.map Prod.snd)[k]? = some b := by rw [List.getElem?_map, hab]; rfl
        refine ⟨{ s with pl := s.pl.modify b (·.set pos p) }, { S with funs := S.funs.set k (l.set pos (l[pos].1, p)) },
          by simp only [step, hab]; rw [if_pos (by omega), if_pos (by omega)], by simp only [spec, l1, Option.bind_some, List.getElem?_eq_getElem hp]; rfl, ?_, ?_, ?_⟩
        · show HeapRel s.rl _ _ ((S.funs.set k (l.set pos (l[pos].1, p))).map _) _
          rw [List.map_set, List.map_set]
          have e1 : (l.map Prod.fst).set pos l[pos].1 = l.map Prod.fst := set_same (by rw [List.getElem?_map, List.getElem?_eq_getElem hp]; rfl)
          have e2 : (S.funs.map (fun l => l.map Prod.fst)).set k (l.map Prod.fst) = S.funs.map (fun l => l.map Prod.fst) :=
            set_same (by rw [List.getElem?_map, l1]; rfl)
          simp only [e1, e2]
          exact h.r
        · have := h.p.modUsed hb (·.set pos p)
          show HeapRel _ _ _ ((S.funs.set k (l.set pos (l[pos].1, p))).map _) _
          rw [List.map_set, List.map_set]
          rw [← set_eq_modify (L := S.funs.map (fun l => l.map Prod.snd)) (x := l.map Prod.snd) (by rw [List.getElem?_map, l1]; rfl)] at this
          exact this
        · intro l' hl
          rcases List.mem_or_eq_of_mem_set hl with h7 | h7
          · exact h.ne l' h7
          · rw [h7]
            intro e
            have := congrArg List.length e
            simp at this
            exact l2 this
      · left
        refine ⟨.assertion, ?_, ?_⟩
        · simp only [step, hab]; rw [if_neg (by omega)]
        · simp only [spec, l1, Option.bind_some]; rw [List.getElem?_eq_none (by omega)]; rfl
    · left
      refine ⟨.name, ?_, ?_⟩
      · simp only [step]; rw [List.getElem?_eq_none (by omega)]
      · simp only [spec]; rw [List.getElem?_eq_none (by omega)]; rfl

theorem run_rel : ∀ (ops : List (Op R P)) (s : St R P) (S : Sp R P), Rel s S → (∀ o ∈ ops, o.fresh) → Rel (run s ops) (specRun S ops)
  | [], _, _, h, _ => h
  | o :: ops, s, S, h, ho => by
    rcases step_rel h o (ho o List.mem_cons_self) with ⟨e, h1, h2⟩ | ⟨t, T, h1, h2, h3⟩
    · simp only [run, specRun, h1, h2]
      exact run_rel ops s S h fun o' ho' => ho o' (List.mem_cons_of_mem _ ho')
    · simp only [run, specRun, h1, h2]
      exact run_rel ops t T h3 fun o' ho' => ho o' (List.mem_cons_of_mem _ ho')

theorem mapM_ok' {β γ ε : Type} {f : β → Except ε γ} {g : β → γ} {l : List β} (h : ∀ a ∈ l, f a = .ok (g a)) : l.mapM f = .ok (l.map g) := by
  induction l with
  | nil => rfl
  | cons a l ih =>
    rw [List.mapM_cons, h a List.mem_cons_self, ih fun b hb => h b (List.mem_cons_of_mem _ hb)]
    rfl

/-- **C75** (what holds).  After any history without lists shared between calls, without empty lists and without `set_rules(pos=…)`: the next call
raises exactly if it should be rejected; function `k` has as many samples as it has been given rules, and the columns of `eval` are the values of
its rules with their parameters, in order; the user's lists are untouched. -/
theorem C75_history_partial {X Y : Type} (app : R → P → X → Y) (ops : List (Op R P)) (h : ∀ o ∈ ops, o.fresh) :
    let s := run (St.new R P) ops
    let S := specRun ⟨[], [], []⟩ ops
    (∀ o : Op R P, o.fresh → ((∃ e, step s o = .error e) ↔ spec S o = none)) ∧
    (∀ k l, S.funs[k]? = some l → nSamples s k = some l.length ∧ ∀ xs, eval app s k xs = .ok (columns app l xs)) ∧
    (∀ k, S.funs[k]? = none → nSamples s k = none) ∧
    s.ownR.map (fun i => s.rl.getD i []) = S.rules ∧ s.ownP.map (fun i => s.pl.getD i []) = S.pars := by
  intro s S
  have hr : Rel s S := run_rel ops _ _ Rel.new h
  refine ⟨fun o ho => ?_, fun k l hk => ?_, fun k hk => ?_, hr.r.own_, hr.p.own_⟩
  · rcases step_rel hr o ho with ⟨e, h1, h2⟩ | ⟨t, T, h1, h2, _⟩
    · exact ⟨fun _ => h2, fun _ => ⟨e, h1⟩⟩
    · rw [h1, h2]
      exact ⟨fun ⟨e, he⟩ => by simp at he, fun he => by simp at he⟩
  · have hlt : k < s.fs.length := by rw [← hr.len]; exact (List.getElem?_eq_some_iff.1 hk).1
    obtain ⟨a, b, hab⟩ : ∃ a b, s.fs[k]? = some (a, b) := ⟨_, _, List.getElem?_eq_getElem hlt⟩
    obtain ⟨l', l1, l2, l3, l4⟩ := hr.at hab
    rw [hk] at l1
    cases l1
    refine ⟨by simp only [nSamples, hab, l3, Option.map_some, List.length_map], fun xs => ?_⟩
    have hpos : 0 < l.length := List.length_pos_iff.2 l2
    have hcount : (if 1 < l.length then l.length else 1) = l.length := by split <;> omega
    simp only [eval, hab, l3, l4, List.length_map, hcount]
    rw [mapM_ok' (g := fun i => (columns app l xs).getD i []) fun i hi => ?_]
    · congr 1
      refine List.ext_getElem (by simp [columns]) fun i h1 h2 => ?_
      simp only [List.getElem_map, List.getElem_range, List.getD]
      rw [List.getElem?_eq_getElem h2]
      rfl
    · have hi' : i < l.length := List.mem_range.1 hi
      simp [columns, List.getD, hi']
  · simp only [nSamples]
    rw [List.getElem?_eq_none (by rw [← hr.len]; exact List.getElem?_eq_none_iff.1 hk)]
    rfl

/-- A history: two functions, one with three rules and shared parameters, one with one rule and two sets of parameters; rules and parameters are added
and changed. -/
example : let ops : List (Op String Nat) := [.new (.lit ["f", "g", "h"]) (.one 0), .new (.one "f") (.lit [1, 2]), .addRule 1 "k" 5, .setPar 0 7 2, .setPars 1 9,
      .setRules 0 (.lit ["f", "g"]) (.lit [1, 2, 3])]
    (∀ o ∈ ops, o.fresh) ∧ (specRun ⟨[], [], []⟩ ops).funs = [[("f", 0), ("g", 0), ("h", 7)], [("f", 9), ("f", 9), ("k", 9)]] ∧
    nSamples (run (St.new _ _) ops) 1 = some 3 ∧ eval (fun r p (x : Nat) => (r, p, x)) (run (St.new _ _) ops) 0 [4] = .ok [[("f", 0, 4)], [("g", 0, 4)], [("h", 7, 4)]] := by
  refine ⟨?_, by decide +kernel, by decide +kernel, by decide +kernel⟩
  intro o ho
  simp only [List.mem_cons, List.not_mem_nil, or_false] at ho
  rcases ho with rfl | rfl | rfl | rfl | rfl | rfl <;> simp [Op.fresh, Arg.fresh]

/-- **C75 does not hold for shared lists**: two functions made from one list are not independent; adding a rule to the first adds one to the user's list
and to the second, which then cannot be evaluated. -/
theorem C75_shared_violated : let ops : List (Op String Nat) := [.mkR ["f", "g"], .new (.var 0) (.one 0), .new (.var 0) (.one 0), .addRule 0 "h" 1]
    let s := run (St.new _ _) ops
    let S := specRun ⟨[], [], []⟩ ops
    S.funs[1]? = some [("f", 0), ("g", 0)] ∧ S.rules = [["f", "g"]] ∧ nSamples s 1 = some 3 ∧ s.ownR.map (fun i => s.rl.getD i []) = [["f", "g", "h"]] ∧
    eval (fun r p (x : Nat) => (r, p, x)) s 1 [4] = .error .index := by decide +kernel

/-- **C75 does not hold for empty functions**: a function with no rules to begin with evaluates the rule that is added with the wrong parameters. -/
theorem C75_empty_violated : let ops : List (Op String Nat) := [.new (.lit []) (.one 0), .addRule 0 "f" 1]
    (specRun ⟨[], [], []⟩ ops).funs = [[("f", 1)]] ∧ nSamples (run (St.new _ _) ops) 0 = some 1 ∧
    eval (fun r p (x : Nat) => (r, p, x)) (run (St.new _ _) ops) 0 [4] = .ok [[("f", 0, 4)]] := by decide +kernel

/-- **C75, `set_rules` with a position** raises an `AttributeError` on every function. -/
theorem C75_position_violated (s : St R P) (k : Nat) (f : R) (p : P) (pos : Nat) (hk : k < s.fs.length) : step s (.setRule k f p pos) = .error .attribute := by
  simp only [step, List.getElem?_eq_getElem hk]

end Verif.Arr.Exp
