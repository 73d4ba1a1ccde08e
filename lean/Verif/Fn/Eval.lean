import Verif.Fn.Bin

/-! # C67: `Nodal.eval` -/

namespace Verif.Fn
open Verif.Mesh Verif.Dof Verif.Fem Verif.Quad Verif.Phys Verif.Reg Verif.Bnd

section lists

theorem idxOf?_some {L : List Nat} {a k : Nat} (h : L.idxOf? a = some k) : L[k]? = some a := by
  induction L generalizing k with
  | nil => simp at h
  | cons b L ih =>
    rw [List.idxOf?_cons] at h
    split_ifs at h with hb
    · cases h
      simpa using hb
    · obtain ⟨k', h1, rfl⟩ := Option.map_eq_some_iff.1 h
      simpa using ih h1

theorem idxOf?_ex {L : List Nat} {a : Nat} (h : a ∈ L) : ∃ k, L.idxOf? a = some k := by
  induction L with
  | nil => cases h
  | cons b L ih =>
    rw [List.idxOf?_cons]
    split_ifs with hb
    · exact ⟨0, rfl⟩
    · rcases List.mem_cons.1 h with rfl | h
      · simp at hb
      · obtain ⟨k, hk⟩ := ih h
        exact ⟨k + 1, by rw [hk]; rfl⟩

theorem lookup_mem {β : Type} {l : List (Nat × β)} (hn : (l.map (·.1)).Nodup) {i : Nat} {b : β} (h : (i, b) ∈ l) : l.lookup i = some b := by
  induction l with
  | nil => cases h
  | cons y l ih =>
    rw [List.map_cons, List.nodup_cons] at hn
    rcases List.mem_cons.1 h with rfl | h
    · simp [List.lookup]
    · have : i ≠ y.1 := by
        rintro rfl
        exact hn.1 (List.mem_map.2 ⟨_, h, rfl⟩)
      rw [List.lookup_cons, show (i == y.1) = false by simpa using this]
      exact ih hn.2 h

theorem zip_fst {β : Type} (l : List Nat) (l' : List β) : ((l.zip l').map (·.1)).Sublist l := by
  induction l generalizing l' with
  | nil => simp
  | cons a l ih =>
    cases l' with
    | nil => simp
    | cons b l' => simpa using ih l'

theorem lookup_zip {β : Type} {l : List Nat} {l' : List β} (hn : l.Nodup) {k i : Nat} {b : β} (h1 : l[k]? = some i) (h2 : l'[k]? = some b) :
    (l.zip l').reverse.lookup i = some b := by
  have hp : ((l.zip l').reverse.map (·.1)).Nodup := by
    rw [List.map_reverse, List.nodup_reverse]
    exact hn.sublist (zip_fst _ _)
  refine lookup_mem hp (List.mem_reverse.2 ?_)
  refine List.mem_of_getElem? (i := k) ?_
  rw [List.getElem?_zip_eq_some]
  exact ⟨h1, h2⟩

theorem zip_self {α β : Type} (l : List α) (f : α → β) : l.zip (l.map f) = l.map (fun a => (a, f a)) := by
  induction l with
  | nil => rfl
  | cons a l ih => simp [ih]

theorem allSome_map {α β : Type} (l : List α) (f : α → Option β) (g : α → β) (h : ∀ a ∈ l, f a = some (g a)) :
    allSome (l.map f) = some (l.map g) := by
  rw [allSome_some, List.map_map]
  exact List.map_congr_left h

/-- A sum over a list without repetition that contains the support. -/
theorem sum_support {F : Type} [AddCommMonoid F] {l l' : List Nat} (hn : l.Nodup) (hn' : l'.Nodup) (hs : ∀ a ∈ l', a ∈ l) (f : Nat → F)
    (h0 : ∀ a ∈ l, a ∉ l' → f a = 0) : (l.map f).sum = (l'.map f).sum := by
  rw [← List.sum_toFinset f hn, ← List.sum_toFinset f hn']
  symm
  apply Finset.sum_subset
  · intro a ha
    rw [List.mem_toFinset] at *
    exact hs a ha
  · intro a ha ha'
    rw [List.mem_toFinset] at *
    exact h0 a ha ha'

theorem list_range {α : Type} (l : List α) (d : α) : l = (List.range l.length).map (fun p => l.getD p d) := by
  apply List.ext_getElem?
  intro p
  by_cases hp : p < l.length
  · simp [hp]
  · simp [hp]

end lists

section
set_option linter.unusedSectionVars false
variable {K : Type} [Field K] [LinearOrder K]

/-- The entry that a bin contributes. -/
def ent (q : Part K) (i a : Nat) : K :=
  (((q.pts.zip q.phi).reverse.lookup i).bind (fun row => (q.dofs.zip row).reverse.lookup a)).getD 0

theorem fold_out (parts : List (Part K)) (Phi : Nat → Nat → K) (i a : Nat) (h : ∀ q ∈ parts, i ∉ q.pts) :
    parts.foldl setBlock Phi i a = Phi i a := by
  induction parts generalizing Phi with
  | nil => rfl
  | cons q parts ih =>
    rw [List.foldl_cons, ih _ (fun q' h' => h q' (by simp [h']))]
    unfold setBlock
    rw [if_neg (fun h' => h q (by simp) h'.1)]

theorem fold_in (parts : List (Part K)) (Phi : Nat → Nat → K) (i a : Nat) (hn : (parts.flatMap (·.pts)).Nodup) (q : Part K)
    (hq : q ∈ parts) (hi : i ∈ q.pts) :
    parts.foldl setBlock Phi i a = if a ∈ q.dofs then ent q i a else Phi i a := by
  induction parts generalizing Phi with
  | nil => cases hq
  | cons q' parts ih =>
    rw [List.flatMap_cons, List.nodup_append] at hn
    obtain ⟨h1, h2, h3⟩ := hn
    rw [List.foldl_cons]
    rcases List.mem_cons.1 hq with rfl | hq
    · rw [fold_out _ _ _ _ (fun q' h' h4 => h3 i hi i (List.mem_flatMap.2 ⟨q', h', h4⟩) rfl)]
      unfold setBlock ent
      simp only [hi, true_and]
    · rw [ih _ h2 hq]
      congr 1
      unfold setBlock
      rw [if_neg (fun h' => h3 i h'.1 i (List.mem_flatMap.2 ⟨q, hq, hi⟩) rfl)]

theorem last_max {L : List Nat} (hs : L.Pairwise (· < ·)) {m : Nat} (h : L.getLast? = some m) : ∀ a ∈ L, a ≤ m := by
  intro a ha
  obtain ⟨L', rfl⟩ : ∃ L', L = L' ++ [m] := by
    rw [List.getLast?_eq_some_iff] at h
    exact h
  rw [List.pairwise_append] at hs
  rcases List.mem_append.1 ha with h | h
  · exact le_of_lt (hs.2.2 a h m (by simp))
  · simp at h; omega

/-- In particular, in ascending order. -/
theorem BasisOf.ascending {K : Type} [Field K] [LinearOrder K] {sf : Bool} {s : St K} {e : ET} {D : DH} {L : List Nat} (hs : L.Pairwise (· < ·))
    (hm : ∀ a, a ∈ L ↔ ∃ c ∈ leaves sf s, ∃ p < nd2 e, Dof.val D c p = some a) : BasisOf sf s e D L :=
  ⟨hs.imp (fun h => ne_of_lt h), fun _ h => last_max hs h, hm⟩

/-- **C67** (basis): the dofs of a basis are `get_region_dofs(subforest_flag)` (C65), in the order of iteration over a Python set. -/
theorem C67_basis {K : Type} [Field K] [LinearOrder K] [IsStrictOrderedRing K] {B : Base K} {sf : Bool} {s : St K} {e : ET} {D : DH}
    (hB : B.WF) (hP : Plain B) (hR : Ready B e sf s D) (hr : RootsIn B sf s) (hf : sf = false ∨ (RootedFlag B s ∧ FullFlag s)) {n : Nat}
    (hn : 4 * s.cells.length ≤ n) : ∃ L', regionDofs none .cell false false sf B.n s n e D = some L' ∧
      ∀ L, L.Perm L' → ((∀ m, L.getLast? = some m → ∀ a ∈ L, a ≤ m) ↔ BasisOf sf s e D L) := by
  obtain ⟨L', e1, e2, e3⟩ := C65_region_dofs hB hP hR hr hf hn none .cell false false (by simp) (.inr rfl)
  refine ⟨L', e1, fun L hp => ⟨fun h => ⟨hp.nodup_iff.2 e2, h, fun a => ?_⟩, fun h => h.last⟩⟩
  rw [hp.mem_iff, e3]
  constructor
  · rintro ⟨c, hc, x, _, _, p, hp, hv, _⟩
    exact ⟨c, hc, p, hp, hv⟩
  · rintro ⟨c, hc, p, hp, hv⟩
    exact ⟨c, hc, .cell c, rfl, rfl, p, hp, hv, rfl, node_insq e ⟨p, hp⟩⟩

theorem rowAt_ok {F : Type} {L : List Nat} (hs : ∀ m, L.getLast? = some m → ∀ a ∈ L, a ≤ m) {data : List (List F)} (hd : data.length = L.length) {a : Nat} (ha : a ∈ L) :
    ∃ k, L.idxOf? a = some k ∧ rowAt L data a = some (data.getD k []) := by
  obtain ⟨k, hk⟩ := idxOf?_ex ha
  have hk' := idxOf?_some hk
  refine ⟨k, hk, ?_⟩
  obtain ⟨m, hm⟩ : ∃ m, L.getLast? = some m := by
    rcases h : L.getLast? with _ | m
    · rw [List.getLast?_eq_none_iff] at h
      subst h
      cases ha
    · exact ⟨m, rfl⟩
  have hmax := hs m hm
  unfold rowAt d2iArr
  rw [hm]
  simp only [Option.bind_some]
  rw [if_pos (by simpa using hmax)]
  simp only [Option.bind_some]
  have hlt : a < m + 1 := by have := hmax a ha; omega
  rw [List.getElem?_map, List.getElem?_range hlt]
  simp only [Option.map_some, Option.bind_some, hk]
  have hk2 := (List.getElem?_eq_some_iff.1 hk').1
  rw [List.getD_eq_getElem?_getD, List.getElem?_eq_getElem (by omega)]
  rfl

theorem dofVal_eq {L : List Nat} {data : List (List K)} {a k : Nat} (h : L.idxOf? a = some k) (j : Nat) :
    dofVal L data j a = (data.getD k []).getD j 0 := by
  unfold dofVal
  rw [h]

end

section
set_option linter.unusedSectionVars false
variable {K : Type} [Field K] [LinearOrder K] [IsStrictOrderedRing K] {B : Base K} {s : St K} {sf : Bool} {tol : K} {e : ET} {D : DH}

theorem quadAt_convex (hC : Convex B) {f : Nat} (hf : f < B.n) (p : List (Fin 4)) : ConvexCCW (quadAt B f p) := by
  induction p with
  | nil => exact hC f hf
  | cons k p ih => exact (C19_child_convex _ ih ∅ k k.2).1

theorem convex_same {a b : QD K} (h : SameVerts a b) : ConvexCCW a ↔ ConvexCCW b := by
  obtain ⟨h0, h1, h2, h3⟩ := h
  unfold ConvexCCW
  rw [h0, h1, h2, h3]

theorem cell_convex (hB : B.WF) (hC : Convex B) (hs : MReach B s) {c : CN} (hc : c ∈ s.cells) : ConvexCCW (cellQ s c) := by
  have hi := hs.inv hB
  rw [convex_same (cellQ_eq hB hs c hc)]
  exact quadAt_convex hC (CEx_root hi c.2 c.1 ((hi.mem c).1 hc)) c.2

theorem castPt_inj {z w : ℚ × ℚ} (h : castPt K z = castPt K w) : z = w := by
  unfold castPt at h
  injection h with h1 h2
  exact Prod.ext (by exact_mod_cast h1) (by exact_mod_cast h2)

/-- The dofs of one cell are different. -/
theorem row_nodup (hB : B.WF) (hP : Plain B) (hC : Convex B) (h : Uses B e s D) {c : CN} (hc : c ∈ s.cells) {p p' a : Nat}
    (hp : p < nd2 e) (hp' : p' < nd2 e) (ha : Dof.val D c p = some a) (ha' : Dof.val D c p' = some a) : p = p' := by
  have h1 := one_place hB hP h hp hp' ha ha'
  rw [← phys_cell two_ne_zero hB h.reach c hc, ← phys_cell two_ne_zero hB h.reach c hc] at h1
  have hi1 := insq_cast (F := K) (node_insq e ⟨p, hp⟩)
  have hi2 := insq_cast (F := K) (node_insq e ⟨p', hp'⟩)
  have := C21_injective _ (cell_convex hB hC h.reach hc) ⟨_, _⟩ ⟨_, _⟩ hi1 hi2 h1
  injection this with e1 e2
  exact node_inj e p p' hp hp' (castPt_inj (K := K) (Prod.ext e1 e2))

theorem row_list_nodup (hB : B.WF) (hP : Plain B) (hC : Convex B) (h : Uses B e s D) {c : CN} (hc : c ∈ s.cells) {row : List Nat}
    (hr : rowOf D c = some row) : row.Nodup := by
  have hl := rowOf_len (h.snd hB hP).1 hr
  rw [List.nodup_iff_getElem?_ne_getElem?]
  intro p p' hpp hp' he
  rw [hl] at hp'
  rw [List.getElem?_eq_getElem (by omega : p' < row.length)] at he
  have := row_nodup hB hP hC h hc (by omega) hp' ((rowOf_val hr _ _).1 he)
    ((rowOf_val hr _ _).1 (List.getElem?_eq_getElem (by omega : p' < row.length)))
  omega

/-- What has to be possible at a point: in every leaf that contains it within the tolerance, its reference coordinates and the shape
functions there can be computed. -/
def Computable (tol : K) (rect : Nat → Bool) (sf : Bool) (s : St K) (e : ET) (der : List Nat) (x : Pt K) : Prop :=
  ∀ c ∈ leaves sf s, contains tol (cellQ s c) x = true →
    ∃ r, refMap rect s c x = some r ∧ ∀ p < nd2 e, ∃ v, shapeAt rect s e der c r p = some v

/-- The parts of the bins. -/
theorem parts_ok {rect : Nat → Bool} {der : List Nat} {xs : List (Pt K)} (hB : B.WF) (hP : Plain B) (hR : Ready B e sf s D)
    (hx : ∀ x ∈ xs, Computable tol rect sf s e der x) {bins : Bins} (hb : Binned tol sf s ((List.range xs.length).zip xs) bins) :
    ∃ g : CN × List Nat → Part K, ∀ b ∈ bins, part rect s e D der xs b = some (g b) ∧ (g b).pts = b.2 ∧ rowOf D b.1 = some (g b).dofs ∧
      ∀ (k i : Nat), b.2[k]? = some i → ∃ x r, xs[i]? = some x ∧ contains tol (cellQ s b.1) x = true ∧ refMap rect s b.1 x = some r ∧
        (g b).phi[k]? = some ((List.range (nd2 e)).map (fun p => (shapeAt rect s e der b.1 r p).getD 0)) := by
  have hi := hR.uses.uses.reach.inv hB
  have key : ∀ b ∈ bins, ∃ q : Part K, part rect s e D der xs b = some q ∧ q.pts = b.2 ∧ rowOf D b.1 = some q.dofs ∧
      ∀ (k i : Nat), b.2[k]? = some i → ∃ x r, xs[i]? = some x ∧ contains tol (cellQ s b.1) x = true ∧ refMap rect s b.1 x = some r ∧
        q.phi[k]? = some ((List.range (nd2 e)).map (fun p => (shapeAt rect s e der b.1 r p).getD 0)) := by
    intro b hbb
    have hleaf := (hb.leaf b hbb).1
    obtain ⟨h2, h3, _⟩ := (Dof.mem_leaves hi b.1).1 hleaf
    obtain ⟨row, hrow⟩ := rowOf_ex (hR.uses.uses.snd hB hP).1 (Phys.nd2_pos e) (hR.val hB h2 h3)
    have hpt : ∀ i ∈ b.2, ∃ x r, xs[i]? = some x ∧ contains tol (cellQ s b.1) x = true ∧ refMap rect s b.1 x = some r ∧
        ∀ p < nd2 e, ∃ v, shapeAt rect s e der b.1 r p = some v := by
      intro i hib
      obtain ⟨x, hx1, hx2⟩ := hb.ins b hbb i hib
      obtain ⟨k, hk⟩ := List.mem_iff_getElem?.1 hx1
      rw [List.getElem?_zip_eq_some] at hk
      obtain ⟨hk1, hk2⟩ := hk
      have hki : k = i := by
        have := List.getElem?_eq_some_iff.1 hk1
        obtain ⟨h4, h5⟩ := this
        simpa using h5
      subst hki
      obtain ⟨r, h4, h5⟩ := hx x (List.mem_of_getElem? hk2) b.1 hleaf hx2
      exact ⟨x, r, hk2, hx2, h4, h5⟩
    have hf : ∀ i ∈ b.2, ∃ v, ((xs[i]?).bind (fun x => (refMap rect s b.1 x).bind (fun r =>
        allSome ((List.range (nd2 e)).map (shapeAt rect s e der b.1 r))))) = some v ∧
        ∃ x r, xs[i]? = some x ∧ contains tol (cellQ s b.1) x = true ∧ refMap rect s b.1 x = some r ∧
          v = (List.range (nd2 e)).map (fun p => (shapeAt rect s e der b.1 r p).getD 0) := by
      intro i hib
      obtain ⟨x, r, h4, h5, h6, h7⟩ := hpt i hib
      refine ⟨_, ?_, x, r, h4, h5, h6, rfl⟩
      rw [h4]
      simp only [Option.bind_some]
      rw [h6]
      simp only [Option.bind_some]
      apply allSome_map
      intro p hp
      obtain ⟨v, hv⟩ := h7 p (List.mem_range.1 hp)
      rw [hv]
      rfl
    choose! v hv using hf
    refine ⟨⟨b.2, row, b.2.map v⟩, ?_, rfl, hrow, ?_⟩
    · unfold part
      rw [hrow]
      simp only [Option.bind_some]
      rw [allSome_map b.2 _ v (fun i hib => (hv i hib).1)]
      rfl
    · intro k i hk
      obtain ⟨_, x, r, h4, h5, h6, h7⟩ := hv i (List.mem_of_getElem? hk)
      exact ⟨x, r, h4, h5, h6, by rw [List.getElem?_map, hk, Option.map_some, h7]⟩
  haveI : Nonempty (Part K) := ⟨⟨[], [], []⟩⟩
  choose! g hg using key
  exact ⟨g, hg⟩

/-- **C67** (eval): evaluation at points, and of derivatives, in general.  For points in the domain (within the tolerance) where the
shape functions can be computed, `eval` returns for each point and each sample the combination of the shape functions of a leaf that
contains the point with the values of the dofs of this leaf. -/
theorem C67_eval (ht : 0 ≤ tol) (hB : B.WF) (hP : Plain B) (hC : Convex B) (hR : Ready B e sf s D) (hr : RootsIn B sf s)
    (hf : sf = false ∨ FullFlag s) {n : Nat} (hn : Deep s n) {L : List Nat} (hL : BasisOf sf s e D L) {data : List (List K)}
    (hd : data.length = L.length) (m : Nat) (rect : Nat → Bool) (der : List Nat) (xs : List (Pt K))
    (hin : ∀ x ∈ xs, ∃ f < B.n, contains tol (rootQ B f) x = true) (hx : ∀ x ∈ xs, Computable tol rect sf s e der x) :
    ∃ fx, evalN tol rect sf B.n s n e D L data m der xs = some fx ∧ fx.length = xs.length ∧ ∀ (i : Nat) x, xs[i]? = some x →
      ∃ row : List K, fx[i]? = some row ∧ row.length = m ∧ ∃ c ∈ leaves sf s, contains tol (cellQ s c) x = true ∧
        ∃ r, refMap rect s c x = some r ∧ ∀ j < m, row[j]? = some (((List.range (nd2 e)).map (fun p =>
          (shapeAt rect s e der c r p).getD 0 * dofVal L data j (dofAt D c p))).sum) := by
  have hs := hR.uses.uses.reach
  have hi := hs.inv hB
  obtain ⟨bins, e1, hb⟩ := C67_bins ht hB hs hr hf hn ((List.range xs.length).zip xs) (by
    rintro ⟨i, x⟩ hix
    exact hin x (List.of_mem_zip hix).2)
  obtain ⟨g, hg⟩ := parts_ok hB hP hR hx hb
  have hparts : allSome (bins.map (part rect s e D der xs)) = some (bins.map g) := allSome_map _ _ _ (fun b hbb => (hg b hbb).1)
  have hperm : (bins.flatMap (·.2)).Perm (List.range xs.length) := by
    have := hb.perm
    rwa [List.map_fst_zip (by simp)] at this
  have hndp : ((bins.map g).flatMap (·.pts)).Nodup := by
    have : (bins.map g).flatMap (·.pts) = bins.flatMap (·.2) := by
      rw [List.flatMap_map]
      exact List.flatMap_congr (fun b hbb => (hg b hbb).2.1)
    rw [this]
    exact hperm.nodup_iff.2 List.nodup_range
  have hud : ∀ b ∈ bins, ∀ a ∈ (g b).dofs, a ∈ ((bins.map g).flatMap (·.dofs)).dedup := by
    intro b hbb a ha
    rw [List.mem_dedup, List.mem_flatMap]
    exact ⟨g b, List.mem_map.2 ⟨b, hbb, rfl⟩, ha⟩
  have hmemL : ∀ a ∈ ((bins.map g).flatMap (·.dofs)).dedup, a ∈ L := by
    intro a ha
    rw [List.mem_dedup, List.mem_flatMap] at ha
    obtain ⟨q, hq, ha⟩ := ha
    obtain ⟨b, hbb, rfl⟩ := List.mem_map.1 hq
    obtain ⟨p, hp, hv⟩ := (rowOf_mem (hR.uses.uses.snd hB hP).1 (hg b hbb).2.2.1 a).1 ha
    exact (hL.mem a).2 ⟨b.1, (hb.leaf b hbb).1, p, hp, hv⟩
  have hrows : ∃ h : Nat → List K, ∀ a ∈ L, rowAt L data a = some (h a) ∧ ∀ j, (h a).getD j 0 = dofVal L data j a := by
    have : ∀ a ∈ L, ∃ y, rowAt L data a = some y ∧ ∀ j, y.getD j 0 = dofVal L data j a := by
      intro a ha
      obtain ⟨k, h1, h2⟩ := rowAt_ok hL.last hd ha
      exact ⟨_, h2, fun j => (dofVal_eq h1 j).symm⟩
    choose! h hh using this
    exact ⟨h, hh⟩
  obtain ⟨h, hh⟩ := hrows
  refine ⟨(List.range xs.length).map (fun i => (List.range m).map (fun j =>
      ((((bins.map g).flatMap (·.dofs)).dedup.zip (((bins.map g).flatMap (·.dofs)).dedup.map h)).map (fun y =>
        (bins.map g).foldl setBlock (fun _ _ => 0) i y.1 * y.2.getD j 0)).sum)), ?_, ?_, ?_⟩
  · unfold evalN
    rw [e1]
    simp only [Option.bind_some]
    rw [hparts]
    simp only [Option.bind_some]
    unfold contract
    rw [allSome_map _ _ h (fun a ha => (hh a (hmemL a ha)).1)]
    simp only [Option.map_some]
  · simp
  · intro i x hix
    have hil : i < xs.length := (List.getElem?_eq_some_iff.1 hix).1
    refine ⟨_, by rw [List.getElem?_map, List.getElem?_range hil]; rfl, by simp, ?_⟩
    have him : i ∈ bins.flatMap (·.2) := hperm.mem_iff.2 (List.mem_range.2 hil)
    obtain ⟨b, hbb, hib⟩ := List.mem_flatMap.1 him
    obtain ⟨k, hk⟩ := List.mem_iff_getElem?.1 hib
    obtain ⟨g1, g2, g3, g4⟩ := hg b hbb
    obtain ⟨x', r, h1, h2, h3, h4⟩ := g4 k i hk
    rw [hix] at h1
    cases h1
    refine ⟨b.1, (hb.leaf b hbb).1, h2, r, h3, fun j hj => ?_⟩
    have hcx := ((Dof.mem_leaves hi b.1).1 (hb.leaf b hbb).1).1
    have hnd := row_list_nodup hB hP hC hR.uses.uses ((hi.mem _).2 hcx) g3
    have hlen := rowOf_len (hR.uses.uses.snd hB hP).1 g3
    have hb2 : b.2.Nodup := by
      have := hperm.nodup_iff.2 List.nodup_range
      rw [List.nodup_flatMap] at this
      exact this.1 b hbb
    have hfold : ∀ a, (bins.map g).foldl setBlock (fun _ _ => 0) i a = if a ∈ (g b).dofs then ent (g b) i a else 0 := by
      intro a
      exact fold_in _ _ i a hndp (g b) (List.mem_map.2 ⟨b, hbb, rfl⟩) (by rw [g2]; exact hib)
    rw [List.getElem?_map, List.getElem?_range hj]
    simp only [Option.map_some, Option.some.injEq]
    rw [zip_self, List.map_map]
    rw [sum_support (List.nodup_dedup _) hnd (hud b hbb) _ (fun a _ ha => by
      simp only [Function.comp]
      rw [hfold, if_neg ha, zero_mul])]
    rw [list_range (g b).dofs 0, hlen, List.map_map]
    apply congrArg
    apply List.map_congr_left
    intro p hp
    have hp' := List.mem_range.1 hp
    have hpa : (g b).dofs[p]? = some ((g b).dofs.getD p 0) := by
      rw [List.getD_eq_getElem?_getD, List.getElem?_eq_getElem (by omega)]
      rfl
    have hmem := List.mem_of_getElem? hpa
    have hva := (rowOf_val g3 p _).1 hpa
    simp only [Function.comp]
    rw [hfold, if_pos hmem, (hh _ (hmemL _ (hud b hbb _ hmem))).2 j]
    congr 1
    · unfold ent
      rw [g2, lookup_zip hb2 hk h4]
      simp only [Option.bind_some]
      rw [lookup_zip hnd hpa (b := (shapeAt rect s e der b.1 r p).getD 0)]
      · rfl
      · rw [List.getElem?_map, List.getElem?_range hp']
        rfl
    · unfold dofAt
      rw [hva]
      rfl

end
end Verif.Fn
