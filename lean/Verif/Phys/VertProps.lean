import Verif.Phys.Vertices
import Verif.Dof.HangEx

/-!
# C63: the vertices of the dofs
-/

namespace Verif.Phys
open Verif.Geom Verif.Quad Verif.Mesh Verif.Dof Verif.Fem

section
set_option linter.unusedSectionVars false
variable {K : Type} [Field K] [LinearOrder K] [IsStrictOrderedRing K] {B : Base K} {e : ET} {s : St K} {D : DH} {V : DV K}
  {close : Pt K → Pt K → Bool}

theorem UsesV.uses (h : UsesV close B e s D V) : Uses B e s D := by
  induction h with
  | new s h => exact .new s h
  | split s s' D V c sf _ h1 h2 h3 ih => exact .split s s' D c sf ih h1 h2 h3
  | mark s D V m _ ih => exact .mark s D m ih
  | dist s D D' V V' sf n _ h1 h2 h3 ih =>
    unfold distributeV at h3
    obtain ⟨D1, g1, g2⟩ := Option.bind_eq_some_iff.1 h3
    obtain ⟨V1, g3, g4⟩ := Option.map_eq_some_iff.1 g2
    cases g4
    exact .dist s D D' sf n ih h1 h2 g1
  | set => assumption

/-! ### The rows -/

theorem rowOf_some {c : CN} {row : List Nat} (h : rowOf D c = some row) : D.dofs c = some (row.map some) := by
  unfold rowOf at h
  obtain ⟨l, h1, h2⟩ := Option.bind_eq_some_iff.1 h
  rw [h1, (allSome_some l row).1 h2]

theorem rowOf_val {c : CN} {row : List Nat} (h : rowOf D c = some row) (i a : Nat) : row[i]? = some a ↔ Dof.val D c i = some a := by
  rw [val_row (rowOf_some h), List.getD_eq_getElem?_getD, List.getElem?_map]
  cases row[i]? <;> simp

theorem rowOf_len (hl : Len e D.dofs) {c : CN} {row : List Nat} (h : rowOf D c = some row) : row.length = nd2 e := by
  have := hl c _ (rowOf_some h)
  simpa using this

theorem rowOf_mem (hl : Len e D.dofs) {c : CN} {row : List Nat} (h : rowOf D c = some row) (a : Nat) :
    a ∈ row ↔ ∃ p < nd2 e, Dof.val D c p = some a := by
  rw [List.mem_iff_getElem?]
  constructor
  · rintro ⟨p, hp⟩
    refine ⟨p, ?_, (rowOf_val h p a).1 hp⟩
    rw [← rowOf_len hl h]
    exact (List.getElem?_eq_some_iff.1 hp).1
  · rintro ⟨p, _, hp⟩
    exact ⟨p, (rowOf_val h p a).2 hp⟩

theorem rowOf_ex (hl : Len e D.dofs) {c : CN} (he : 0 < nd2 e) (h : ∀ p < nd2 e, Dof.val D c p ≠ none) : ∃ row, rowOf D c = some row := by
  rcases hr : D.dofs c with _ | l
  · exact absurd (by simp [Dof.val, hr]) (h 0 he)
  · have hlen := hl c l hr
    have : ∃ row : List Nat, l = row.map some := by
      refine ⟨l.map (·.getD 0), ?_⟩
      apply List.ext_getElem?
      intro i
      simp only [List.getElem?_map]
      rcases hi : l[i]? with _ | o
      · rfl
      · have hlt : i < nd2 e := by rw [← hlen]; exact (List.getElem?_eq_some_iff.1 hi).1
        have := h i hlt
        rw [val_row hr, List.getD_eq_getElem?_getD, hi] at this
        cases o with
        | none => exact absurd rfl this
        | some a => rfl
    obtain ⟨row, rfl⟩ := this
    refine ⟨row, ?_⟩
    unfold rowOf
    rw [hr]
    exact (allSome_some _ _).2 rfl

theorem nd2_pos (e : ET) : 0 < nd2 e := by cases e <;> decide

/-! ### The invariant -/

/-- What is stored. -/
structure VInv (B : Base K) (e : ET) (D : DH) (V : DV K) : Prop where
  nd : V.keys.Nodup
  iff : ∀ a, a ∈ V.keys ↔ V.at_ a ≠ []
  ok : ∀ a c x, (c, x) ∈ V.at_ a → ∃ p < nd2 e, Dof.val D c p = some a ∧
    x = phys (rootQ B c.1) (climb c.2 (castPt K (node e p)))

theorem VInv.new : VInv B e D (DV.new : DV K) := ⟨List.nodup_nil, by simp [DV.new], by simp [DV.new]⟩

theorem VInv.mono {D' : DH} (h : VInv B e D V) (hD : ∀ c p a, p < nd2 e → Dof.val D c p = some a → Dof.val D' c p = some a) :
    VInv B e D' V := by
  refine ⟨h.nd, h.iff, fun a c x hx => ?_⟩
  obtain ⟨p, h1, h2, h3⟩ := h.ok a c x hx
  exact ⟨p, h1, hD c p a h1 h2, h3⟩

theorem mem_dput {l : List (CN × Pt K)} {c c' : CN} {x x' : Pt K} (h : (c', x') ∈ dput l c x) : (c', x') ∈ l ∨ (c' = c ∧ x' = x) := by
  unfold dput at h
  split_ifs at h
  · obtain ⟨y, hy, e⟩ := List.mem_map.1 h
    split_ifs at e
    · cases e; exact .inr ⟨rfl, rfl⟩
    · rw [e] at hy; exact .inl hy
  · rcases List.mem_append.1 h with h | h
    · exact .inl h
    · simp only [List.mem_singleton, Prod.mk.injEq] at h; exact .inr h

theorem dput_ne (l : List (CN × Pt K)) (c : CN) (x : Pt K) : dput l c x ≠ [] := by
  unfold dput
  split_ifs with h
  · intro h0
    rw [List.map_eq_nil_iff] at h0
    rw [h0] at h
    simp at h
  · simp

theorem addV_inv (h : VInv B e D V) {c : CN} {a : Nat} {x : Pt K} (hx : ∃ p < nd2 e, Dof.val D c p = some a ∧
    x = phys (rootQ B c.1) (climb c.2 (castPt K (node e p)))) : VInv B e D (addV close V c a x) := by
  unfold addV
  split_ifs with h1 h2
  · refine ⟨h.nd, fun b => ?_, fun b c' x' hb => ?_⟩
    · by_cases hb : b = a
      · subst hb
        simp only [Function.update_self]
        exact ⟨fun _ => dput_ne _ _ _, fun _ => h1⟩
      · simp only [Function.update_of_ne hb]
        exact h.iff b
    · by_cases hba : b = a
      · subst hba
        simp only [Function.update_self] at hb
        rcases mem_dput hb with hb | ⟨rfl, rfl⟩
        · exact h.ok b c' x' hb
        · exact hx
      · simp only [Function.update_of_ne hba] at hb
        exact h.ok b c' x' hb
  · exact h
  · refine ⟨?_, fun b => ?_, fun b c' x' hb => ?_⟩
    · exact List.nodup_append'.2 ⟨h.nd, List.nodup_singleton _, by simpa using h1⟩
    · by_cases hb : b = a
      · subst hb
        simp
      · simp only [Function.update_of_ne hb, List.mem_append, List.mem_singleton, hb, or_false]
        exact h.iff b
    · by_cases hba : b = a
      · subst hba
        simp only [Function.update_self, List.mem_singleton, Prod.mk.injEq] at hb
        obtain ⟨rfl, rfl⟩ := hb
        exact hx
      · simp only [Function.update_of_ne hba] at hb
        exact h.ok b c' x' hb

theorem addV_keys (V : DV K) (c : CN) (a : Nat) (x : Pt K) (b : Nat) : b ∈ (addV close V c a x).keys ↔ b ∈ V.keys ∨ b = a := by
  unfold addV
  split_ifs with h1 h2
  · show b ∈ V.keys ↔ _
    exact ⟨.inl, fun h => h.elim id (fun h => h ▸ h1)⟩
  · exact ⟨.inl, fun h => h.elim id (fun h => h ▸ h1)⟩
  · simp

theorem fold_keys (s : St K) (e : ET) (c : CN) : ∀ (l : List (Nat × Nat)) (V : DV K) (b : Nat),
    b ∈ (l.foldl (fun V y => addV close V c y.1 (nodeXY s e c y.2)) V).keys ↔ b ∈ V.keys ∨ b ∈ l.map (·.1) := by
  intro l
  induction l with
  | nil => intro V b; simp
  | cons y l ih =>
    intro V b
    rw [List.foldl_cons, ih, addV_keys]
    simp only [List.map_cons, List.mem_cons]
    tauto

theorem fold_inv {c : CN} : ∀ (l : List (Nat × Nat)) (V : DV K), VInv B e D V →
    (∀ y ∈ l, ∃ p < nd2 e, Dof.val D c p = some y.1 ∧ nodeXY s e c y.2 = phys (rootQ B c.1) (climb c.2 (castPt K (node e p)))) →
    VInv B e D (l.foldl (fun V y => addV close V c y.1 (nodeXY s e c y.2)) V) := by
  intro l
  induction l with
  | nil => intro V h _; exact h
  | cons y l ih =>
    intro V h hl
    rw [List.foldl_cons]
    exact ih _ (addV_inv h (hl y (by simp))) (fun z hz => hl z (by simp [hz]))

theorem nodeXY_eq (hB : B.WF) (h : MReach B s) {c : CN} (hc : c ∈ s.cells) (p : Nat) :
    nodeXY s e c p = phys (rootQ B c.1) (climb c.2 (castPt K (node e p))) := phys_cell two_ne_zero hB h c hc _

theorem visitV_spec (hB : B.WF) (hs : MReach B s) (hl : Len e D.dofs) {c : CN} (hc : c ∈ s.cells) {V' : DV K}
    (h : visitV close s e D V c = some V') : (VInv B e D V → VInv B e D V') ∧
      ∃ row, rowOf D c = some row ∧ ∀ b, b ∈ V'.keys ↔ b ∈ V.keys ∨ b ∈ row := by
  unfold visitV at h
  obtain ⟨row, hr, h⟩ := Option.map_eq_some_iff.1 h
  split_ifs at h with hall
  · subst h
    refine ⟨id, row, hr, fun b => ⟨.inl, fun h => h.elim id (fun h => ?_)⟩⟩
    simpa using List.all_eq_true.1 hall b h
  · subst h
    refine ⟨fun hV => fold_inv _ _ hV ?_, row, hr, fun b => ?_⟩
    · rintro ⟨a, p⟩ hy
      have hp := List.mk_mem_zipIdx_iff_getElem?.1 hy
      refine ⟨p, ?_, (rowOf_val hr p a).1 hp, nodeXY_eq hB hs hc p⟩
      rw [← rowOf_len hl hr]
      exact (List.getElem?_eq_some_iff.1 hp).1
    · rw [fold_keys, List.zipIdx_map_fst]

theorem visits_spec (hB : B.WF) (hs : MReach B s) (hl : Len e D.dofs) : ∀ (L : List CN) (V V' : DV K), (∀ c ∈ L, c ∈ s.cells) →
    L.foldlM (visitV close s e D) V = some V' → (VInv B e D V → VInv B e D V') ∧
      (∀ b ∈ V.keys, b ∈ V'.keys) ∧ ∀ c ∈ L, ∃ row, rowOf D c = some row ∧ ∀ b ∈ row, b ∈ V'.keys := by
  intro L
  induction L with
  | nil =>
    intro V V' _ h
    simp only [List.foldlM_nil, Option.pure_def, Option.some.injEq] at h
    subst h
    exact ⟨id, fun _ h => h, by simp⟩
  | cons c L ih =>
    intro V V' hL h
    rw [List.foldlM_cons] at h
    obtain ⟨V1, g1, g2⟩ := Option.bind_eq_some_iff.1 h
    obtain ⟨a1, row, a2, a3⟩ := visitV_spec hB hs hl (hL c (by simp)) g1
    obtain ⟨b1, b2, b3⟩ := ih V1 V' (fun x hx => hL x (by simp [hx])) g2
    refine ⟨fun h => b1 (a1 h), fun b hb => b2 b ((a3 b).2 (.inl hb)), ?_⟩
    intro d hd
    rcases List.mem_cons.1 hd with rfl | hd
    · exact ⟨row, a2, fun b hb => b2 b ((a3 b).2 (.inr hb))⟩
    · exact b3 d hd

theorem visits_ex (L : List CN) (hL : ∀ c ∈ L, ∃ row, rowOf D c = some row) : ∀ (V : DV K),
    ∃ V', L.foldlM (visitV close s e D) V = some V' := by
  induction L with
  | nil => intro V; exact ⟨V, rfl⟩
  | cons c L ih =>
    intro V
    obtain ⟨row, hr⟩ := hL c (by simp)
    obtain ⟨V1, h1⟩ : ∃ V1, visitV close s e D V c = some V1 := by unfold visitV; rw [hr]; exact ⟨_, rfl⟩
    obtain ⟨V', h2⟩ := ih (fun d hd => hL d (by simp [hd])) V1
    refine ⟨V', ?_⟩
    rw [List.foldlM_cons, h1]
    exact h2

theorem leafDofs_some {sf : Bool} {l : List Nat} (hl : Len e D.dofs) (h : leafDofs sf s D = some l) :
    l.Nodup ∧ ∀ a, a ∈ l ↔ ∃ c ∈ leaves sf s, ∃ p < nd2 e, Dof.val D c p = some a := by
  unfold leafDofs at h
  obtain ⟨rows, h1, h2⟩ := Option.map_eq_some_iff.1 h
  rw [allSome_some] at h1
  subst h2
  refine ⟨List.nodup_dedup _, fun a => ?_⟩
  rw [List.mem_dedup, List.mem_flatten]
  constructor
  · rintro ⟨row, hr, ha⟩
    have : some row ∈ (leaves sf s).map (rowOf D) := by rw [h1]; exact List.mem_map_of_mem hr
    obtain ⟨c, hc, hrow⟩ := List.mem_map.1 this
    exact ⟨c, hc, (rowOf_mem hl hrow a).1 ha⟩
  · rintro ⟨c, hc, hp⟩
    have : rowOf D c ∈ rows.map some := by rw [← h1]; exact List.mem_map_of_mem hc
    obtain ⟨row, hr, hrow⟩ := List.mem_map.1 this
    exact ⟨row, hr, (rowOf_mem hl hrow.symm a).2 hp⟩

theorem leafDofs_ex {sf : Bool} (h : ∀ c ∈ leaves sf s, ∃ row, rowOf D c = some row) : ∃ l, leafDofs sf s D = some l := by
  have : ∃ rows, allSome ((leaves sf s).map (rowOf D)) = some rows := by
    generalize leaves sf s = L at h
    induction L with
    | nil => exact ⟨[], rfl⟩
    | cons c L ih =>
      obtain ⟨row, hr⟩ := h c (by simp)
      obtain ⟨rows, hrows⟩ := ih (fun d hd => h d (by simp [hd]))
      exact ⟨row :: rows, by simp [allSome, hr, hrows]⟩
  obtain ⟨rows, hr⟩ := this
  exact ⟨_, by unfold leafDofs; rw [hr]; rfl⟩

theorem setVerts_spec (hB : B.WF) (hs : MReach B s) (hl : Len e D.dofs) {sf : Bool} {n : Nat} (hn : 4 * s.cells.length ≤ n) {V' : DV K}
    (h : setVerts close sf B.n s e n D V = some V') : (VInv B e D V → VInv B e D V') ∧ (∀ b ∈ V.keys, b ∈ V'.keys) ∧
      ∃ l, leafDofs sf s D = some l ∧ ((l.length ≤ V.keys.length ∧ V' = V) ∨
        ∀ c ∈ s.cells, (sf = false ∨ s.mkd c = true) → ∃ row, rowOf D c = some row ∧ ∀ b ∈ row, b ∈ V'.keys) := by
  have hi := hs.inv hB
  unfold setVerts at h
  obtain ⟨l, h1, h2⟩ := Option.bind_eq_some_iff.1 h
  split_ifs at h2 with hlen
  · cases h2
    exact ⟨id, fun _ h => h, l, h1, .inl ⟨hlen, rfl⟩⟩
  · obtain ⟨L, h3, h4⟩ := Option.bind_eq_some_iff.1 h2
    obtain ⟨L', q1, q2, q3⟩ := cellsDF_spec hi sf n hn
    rw [h3] at q1
    cases q1
    obtain ⟨a1, a2, a3⟩ := visits_spec hB hs hl L V V' (fun c hc => ((q3 c).1 hc).1) h4
    exact ⟨a1, a2, l, h1, .inr (fun c hc hm => a3 c ((q3 c).2 ⟨hc, hm⟩))⟩

theorem UsesV.inv (hB : B.WF) (hP : Plain B) (h : UsesV close B e s D V) : VInv B e D V := by
  induction h with
  | new s h => exact VInv.new
  | split s s' D V c sf _ _ _ _ ih => exact ih
  | mark s D V m _ ih => exact ih
  | dist s D D' V V' sf n h0 h1 h2 h3 ih =>
    unfold distributeV at h3
    obtain ⟨D1, g1, g2⟩ := Option.bind_eq_some_iff.1 h3
    obtain ⟨V1, g3, g4⟩ := Option.map_eq_some_iff.1 g2
    cases g4
    have hu := h0.uses
    have hu' : Uses B e s D' := .dist s D D' sf n hu h1 h2 g1
    refine (setVerts_spec hB hu.reach (hu'.snd hB hP).1 h2 g3).1 (ih.mono fun c p a hp ha => ?_)
    exact C34_stable hB hP hu sf n h2 g1 c p a hp ha
  | set s D V V' sf n h0 h1 h2 ih =>
    exact (setVerts_spec hB h0.uses.reach (h0.uses.snd hB hP).1 h1 h2).1 ih

/-- Cells that have a dof have it at one place. -/
theorem one_place (hB : B.WF) (hP : Plain B) (h : Uses B e s D) {c c' : CN} {p p' a : Nat} (hp : p < nd2 e) (hp' : p' < nd2 e)
    (ha : Dof.val D c p = some a) (ha' : Dof.val D c' p' = some a) :
    phys (rootQ B c.1) (climb c.2 (castPt K (node e p))) = phys (rootQ B c'.1) (climb c'.2 (castPt K (node e p'))) := by
  cases he : torn e
  · have h1 := samePt_up (F := K) B (C34_sound hB hP he h c c' p p' a hp hp' ha ha')
    rw [castRoot_pt, castRoot_pt] at h1
    exact same_phys hB hP h1
  · have h1 := (C34_torn hB hP he h c c' p p' a hp hp' ha ha').2.2
    have h2 : castRoot K (rootPt c (node e p)) = castRoot K (rootPt c' (node e p')) := by rw [h1]
    rw [castRoot_pt, castRoot_pt] at h2
    exact same_phys hB hP (x := rootPt c _) (y := rootPt c' _) (by rw [h2]; exact .refl _)

/-! ### The theorems -/

/-- C63: whatever `get_dof_vertices` returns for a dof is the place of the dof: in every cell of the mesh that has the
dof, the image of the corresponding reference node.  After any history; all elements; `close` is arbitrary. -/
theorem C63_vertex (hB : B.WF) (hP : Plain B) (h : UsesV close B e s D V) (a : Nat) (x : Pt K) (hx : getVert V a = some x)
    (c : CN) (hc : c ∈ s.cells) (p : Nat) (hp : p < nd2 e) (ha : Dof.val D c p = some a) :
    x = phys (cellQ s c) (castPt K (node e p)) := by
  unfold getVert at hx
  split_ifs at hx with hk
  obtain ⟨⟨c', y⟩, h1, rfl⟩ := Option.map_eq_some_iff.1 hx
  obtain ⟨p', h2, h3, h4⟩ := (h.inv hB hP).ok a c' y (List.mem_of_mem_head? h1)
  rw [phys_cell two_ne_zero hB h.uses.reach c hc]
  show y = _
  rw [h4]
  exact one_place hB hP h.uses h2 hp h3 ha

/-- C63: with `cells` the result, if there is one for a dof, is the same. -/
theorem C63_vertex_cells (hB : B.WF) (hP : Plain B) (h : UsesV close B e s D V) (a : Nat) (l : List (Pt K)) (f : Nat → Option CN)
    (hx : getVertsIn V [a] f = some l) (c : CN) (hc : c ∈ s.cells) (p : Nat) (hp : p < nd2 e) (ha : Dof.val D c p = some a) :
    ∀ x ∈ l, x = phys (cellQ s c) (castPt K (node e p)) := by
  have key : ∀ c' y, (c', y) ∈ V.at_ a → y = phys (cellQ s c) (castPt K (node e p)) := by
    intro c' y hy
    obtain ⟨p', h2, h3, h4⟩ := (h.inv hB hP).ok a c' y hy
    rw [phys_cell two_ne_zero hB h.uses.reach c hc, h4]
    exact one_place hB hP h.uses h2 hp h3 ha
  unfold getVertsIn at hx
  simp only [List.map_cons, List.map_nil] at hx
  intro x hxl
  split_ifs at hx with h1 h2
  · simp only [allSome, Option.map_some, List.flatten_cons, List.flatten_nil, List.append_nil, Option.some.injEq] at hx
    rw [← hx] at hxl
    obtain ⟨⟨c', y⟩, hy, rfl⟩ := List.mem_map.1 hxl
    exact key c' y hy
  · rcases hf : f a with _ | c'
    · rw [hf] at hx
      simp only [allSome, Option.map_some, List.flatten_cons, List.flatten_nil, List.append_nil, Option.some.injEq] at hx
      rw [← hx] at hxl
      cases hxl
    · rw [hf] at hx
      simp only at hx
      rcases hfi : (V.at_ a).find? (fun y => decide (y.1 = c')) with _ | ⟨c'', y⟩
      · rw [hfi] at hx; simp [allSome] at hx
      · rw [hfi] at hx
        simp only [allSome, Option.map_some, List.flatten_cons, List.flatten_nil, List.append_nil, Option.some.injEq] at hx
        rw [← hx] at hxl
        simp only [List.mem_singleton] at hxl
        rw [hxl]
        exact key c'' y (List.mem_of_find?_eq_some hfi)
  · simp [allSome] at hx

theorem getVert_ex (hV : VInv B e D V) {a : Nat} (ha : a ∈ V.keys) : ∃ x, getVert V a = some x := by
  unfold getVert
  rw [if_pos ha]
  have := (hV.iff a).1 ha
  cases h : V.at_ a with
  | nil => exact absurd h this
  | cons y l => exact ⟨_, rfl⟩

/-- C63: `distribute_dofs` does not fail in its last line. -/
theorem C63_succeeds (hB : B.WF) (hP : Plain B) (h : UsesV close B e s D V) (hb : isBalanced false s = true) (sf : Bool)
    (hf : sf = false ∨ RootedFlag B s) (n : Nat) (hn : 4 * s.cells.length ≤ n) :
    ∃ D' V', distributeV close sf B.n s e n D V = some (D', V') := by
  obtain ⟨D', hD⟩ := C34_terminates hB hP h.uses hb sf n hn
  have hu' : Uses B e s D' := .dist s D D' sf n h.uses hf hn hD
  have hl := (hu'.snd hB hP).1
  have hi := h.uses.reach.inv hB
  have hrow : ∀ c ∈ s.cells, (sf = false ∨ s.mkd c = true) → ∃ row, rowOf D' c = some row := by
    intro c hc hm
    refine rowOf_ex hl (nd2_pos e) (fun p hp => ?_)
    obtain ⟨a, ha⟩ := C34_complete hB hP h.uses sf n hn hD c hc hm p hp
    rw [ha]; simp
  obtain ⟨l, hl'⟩ := leafDofs_ex (D := D') (s := s) (sf := sf) (fun c hc => by
    obtain ⟨h1, h2, _⟩ := (mem_leaves hi c).1 hc
    exact hrow c ((hi.mem c).2 h1) h2)
  obtain ⟨L, q1, q2, q3⟩ := cellsDF_spec hi sf n hn
  obtain ⟨V1, hV1⟩ := visits_ex (s := s) (e := e) (close := close) L (fun c hc => hrow c ((q3 c).1 hc).1 ((q3 c).1 hc).2) V
  have : ∃ V', setVerts close sf B.n s e n D' V = some V' := by
    unfold setVerts
    rw [hl']
    simp only [Option.bind_some]
    split_ifs
    · exact ⟨_, rfl⟩
    · rw [q1]; exact ⟨V1, hV1⟩
  obtain ⟨V', hV'⟩ := this
  exact ⟨D', V', by unfold distributeV; rw [hD]; simp [hV']⟩

/-- C63: after the first `distribute_dofs(flag)` every dof of every cell of the (sub)mesh has a vertex. -/
theorem C63_complete_first (hB : B.WF) (hP : Plain B) {D' : DH} {V' : DV K} (h : UsesV close B e s D DV.new) (sf : Bool)
    (hf : sf = false ∨ RootedFlag B s) (n : Nat) (hn : 4 * s.cells.length ≤ n)
    (hd : distributeV close sf B.n s e n D DV.new = some (D', V')) (c : CN) (hc : c ∈ s.cells) (hm : sf = false ∨ s.mkd c = true)
    (p : Nat) (hp : p < nd2 e) : ∃ a, Dof.val D' c p = some a ∧ getVert V' a = some (phys (cellQ s c) (castPt K (node e p))) := by
  have hU' : UsesV close B e s D' V' := .dist s D D' _ V' sf n h hf hn hd
  have hi := h.uses.reach.inv hB
  unfold distributeV at hd
  obtain ⟨D1, g1, g2⟩ := Option.bind_eq_some_iff.1 hd
  obtain ⟨V1, g3, g4⟩ := Option.map_eq_some_iff.1 g2
  cases g4
  obtain ⟨a, ha⟩ := C34_complete hB hP h.uses sf n hn g1 c hc hm p hp
  have hl := (hU'.uses.snd hB hP).1
  obtain ⟨_, _, l, q1, q2⟩ := setVerts_spec hB h.uses.reach hl hn g3
  have hk : a ∈ V'.keys := by
    rcases q2 with ⟨q2, q3⟩ | q2
    · exfalso
      -- a leaf below `c`
      have hlen : l = [] := List.length_eq_zero_iff.1 (Nat.le_zero.1 q2)
      obtain ⟨N, hN⟩ := level_bound s.cells
      have key : ∀ (n : Nat) (c : CN), N - level c ≤ n → c ∈ s.cells → (sf = false ∨ s.mkd c = true) → ∃ d, d ∈ leaves sf s := by
        intro n
        induction n with
        | zero =>
          intro c hn hc hm
          by_cases hk : hasCh sf s c = true
          · exfalso
            have := hN (child c 0) ((hi.mem _).2 (hasCh_kids hk))
            rw [level_child] at this
            omega
          · exact ⟨c, (mem_leaves hi c).2 ⟨(hi.mem c).1 hc, hm, by simpa using hk⟩⟩
        | succ n ih =>
          intro c hn hc hm
          by_cases hk : hasCh sf s c = true
          · have hkids := hasCh_kids hk
            have : ∃ k, sf = false ∨ s.mkd (child c k) = true := by
              cases sf
              · exact ⟨0, .inl rfl⟩
              · unfold hasCh at hk
                rw [Bool.and_eq_true] at hk
                obtain ⟨k, _, hk⟩ := List.any_eq_true.1 hk.2
                exact ⟨k, .inr hk⟩
            obtain ⟨k, hk'⟩ := this
            refine ih (child c k) ?_ ((hi.mem _).2 hkids) hk'
            rw [level_child]; omega
          · exact ⟨c, (mem_leaves hi c).2 ⟨(hi.mem c).1 hc, hm, by simpa using hk⟩⟩
      obtain ⟨d, hd'⟩ := key _ c (le_refl _) hc hm
      obtain ⟨h1, h2, _⟩ := (mem_leaves hi d).1 hd'
      obtain ⟨b, hb⟩ := C34_complete hB hP h.uses sf n hn g1 d ((hi.mem d).2 h1) h2 0 (nd2_pos e)
      have := ((leafDofs_some hl q1).2 b).2 ⟨d, hd', 0, nd2_pos e, hb⟩
      rw [hlen] at this
      cases this
    · obtain ⟨row, hr, hrow⟩ := q2 c hc hm
      exact hrow a ((rowOf_mem hl hr a).2 ⟨p, hp, ha⟩)
  obtain ⟨x, hx⟩ := getVert_ex (hU'.inv hB hP) hk
  exact ⟨a, ha, by rw [hx, C63_vertex hB hP hU' a x hx c hc p hp ha]⟩

/-- Histories without refinement after the dof handler was created. -/
inductive UsesVF (close : Pt K → Pt K → Bool) (B : Base K) (e : ET) : St K → DH → DV K → Prop
  | new (s : St K) : MReach B s → UsesVF close B e s DH.new DV.new
  | mark (s : St K) (D : DH) (V : DV K) (m : CN → Bool) : UsesVF close B e s D V → UsesVF close B e { s with mkd := m } D V
  | dist (s : St K) (D D' : DH) (V V' : DV K) (sf : Bool) (n : Nat) : UsesVF close B e s D V → (sf = false ∨ RootedFlag B s) →
      4 * s.cells.length ≤ n → distributeV close sf B.n s e n D V = some (D', V') → UsesVF close B e s D' V'
  | set (s : St K) (D : DH) (V V' : DV K) (sf : Bool) (n : Nat) : UsesVF close B e s D V →
      4 * s.cells.length ≤ n → setVerts close sf B.n s e n D V = some V' → UsesVF close B e s D V'

theorem UsesVF.usesV (h : UsesVF close B e s D V) : UsesV close B e s D V := by
  induction h with
  | new s h => exact .new s h
  | mark s D V m _ ih => exact .mark s D V m ih
  | dist s D D' V V' sf n _ h1 h2 h3 ih => exact .dist s D D' V V' sf n ih h1 h2 h3
  | set s D V V' sf n _ h1 h2 ih => exact .set s D V V' sf n ih h1 h2

theorem UsesVF.fixed (h : UsesVF close B e s D V) : UsesFixed B e s D := by
  induction h with
  | new s h => exact .new s h
  | mark s D V m _ ih => exact .mark s D m ih
  | dist s D D' V V' sf n _ h1 h2 h3 ih =>
    unfold distributeV at h3
    obtain ⟨D1, g1, g2⟩ := Option.bind_eq_some_iff.1 h3
    obtain ⟨V1, g3, g4⟩ := Option.map_eq_some_iff.1 g2
    cases g4
    exact .dist s D D' sf n ih h1 h2 g1
  | set => assumption

/-- C63: with a continuous element, after any history of distributions on submeshes of a mesh that is not refined
meanwhile, `distribute_dofs()` on the whole mesh leaves no dof without a vertex. -/
theorem C63_complete (hB : B.WF) (hP : Plain B) (he : torn e = false) {D' : DH} {V' : DV K} (h : UsesVF close B e s D V) (n : Nat)
    (hn : 4 * s.cells.length ≤ n) (hd : distributeV close false B.n s e n D V = some (D', V')) (a : Nat) (ha : a < D'.count) :
    ∃ x, getVert V' a = some x ∧ ∃ c ∈ s.cells, ∃ p < nd2 e, Dof.val D' c p = some a ∧ x = phys (cellQ s c) (castPt K (node e p)) := by
  have hF' : UsesVF close B e s D' V' := .dist s D D' V V' false n h (.inl rfl) hn hd
  have hU' := hF'.usesV
  have hu := h.usesV.uses
  unfold distributeV at hd
  obtain ⟨D1, g1, g2⟩ := Option.bind_eq_some_iff.1 hd
  obtain ⟨V1, g3, g4⟩ := Option.map_eq_some_iff.1 g2
  cases g4
  have hbal : isBalanced false s = true := by
    unfold distributeDofs at g1
    obtain ⟨L, k1, k2⟩ := Option.bind_eq_some_iff.1 g1
    unfold distribute at k2
    split_ifs at k2 with hb
    exact hb
  have hR : Ready B e false s D' := ⟨hF'.fixed, .inl rfl, hbal, fun c hc hm p hp => by
    obtain ⟨a, ha⟩ := C34_complete hB hP hu false n hn g1 c hc hm p hp
    rw [ha]; simp⟩
  have hl := (hU'.uses.snd hB hP).1
  obtain ⟨_, hmono, l, q1, q2⟩ := setVerts_spec hB hu.reach hl hn g3
  have hI := hU'.inv hB hP
  have hlt : ∀ b ∈ V'.keys, b < D'.count := by
    intro b hb
    have hne := (hI.iff b).1 hb
    obtain ⟨⟨c, x⟩, hcx⟩ := List.exists_mem_of_ne_nil _ hne
    obtain ⟨p, hp, hv, _⟩ := hI.ok b c x hcx
    exact (hU'.uses.snd hB hP).2.1.lt (c, ⟨p, hp⟩) b hv
  obtain ⟨c, hc, p, hp, hv⟩ := (C62_leaf_dofs hB hP he hR a).1 ha
  have hcc : c ∈ s.cells := ((hu.reach.inv hB).mem c).2 ((mem_leaves (hu.reach.inv hB) c).1 hc).1
  have hk : a ∈ V'.keys := by
    rcases q2 with ⟨q2, q3⟩ | q2
    · subst q3
      obtain ⟨l1, l2⟩ := leafDofs_some hl q1
      have hsub : V'.keys ⊆ l := fun b hb => (l2 b).2 ((C62_leaf_dofs hB hP he hR b).1 (hlt b hb))
      have hperm : V'.keys.Perm l := (hI.nd.subperm hsub).perm_of_length_le q2
      exact hperm.mem_iff.2 ((l2 a).2 ⟨c, hc, p, hp, hv⟩)
    · obtain ⟨row, hr, hrow⟩ := q2 c hcc (.inl rfl)
      exact hrow a ((rowOf_mem hl hr a).2 ⟨p, hp, hv⟩)
  obtain ⟨x, hx⟩ := getVert_ex hI hk
  exact ⟨x, hx, c, hcc, p, hp, hv, C63_vertex hB hP hU' a x hx c hcc p hp hv⟩

end
end Verif.Phys
