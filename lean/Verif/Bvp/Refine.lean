import Verif.Bvp.Conv

/-!
# Uniform refinement of one-dimensional meshes
-/

namespace Verif.Bvp
open Verif.Line Verif.OneD Verif.Fem Verif.Form Verif.Asm Verif.Geom Verif.Gauss

section
set_option linter.unusedSectionVars false
variable {K : Type} [Field K] [LinearOrder K] [IsStrictOrderedRing K]

/-- `mesh.cells.refine()` without flags (mesh.py 1651-1723): split all leaves.  `n` bounds the loop of the traversal. -/
def refine1 (F : List (Cell K)) (n : Nat) : Option (List (Cell K)) :=
  (leaves1 (inSub none) F n).map (fun L => L.foldl (fun G c => if kidsAt G c then G else step G (.split (pathOf c))) F)

/-- `r` calls of `refine`. -/
def refineN : Nat → List (Cell K) → Option (List (Cell K))
  | 0, F => some F
  | r + 1, F => (refine1 F (nCells F)).bind (refineN r)

variable {F : List (Cell K)} {N : Nat} {X : Nat → K}

theorem getL_modify_inv (g : Cell K → Cell K) : ∀ (p : Path) (F : List (Cell K)) (q : Path), (getL (modifyL g F p) q).isSome →
    (getL F q).isSome ∨ ∃ r t, q = p ++ r ∧ getL F p = some t ∧ (getL (g t).kids r).isSome := by
  intro p
  induction p with
  | nil => intro F q h; exact .inl h
  | cons i p ih =>
    intro F q h
    match p, ih with
    | [], _ =>
      simp only [modifyL] at h
      match q with
      | [] => simp [getL] at h
      | [j] =>
        left
        simp only [getL] at h ⊢
        rw [List.getElem?_modify] at h
        simpa using h
      | j :: j' :: q =>
        simp only [getL] at h ⊢
        rw [List.getElem?_modify] at h
        rcases hj : F[j]? with _ | t
        · rw [hj] at h; simp at h
        · rw [hj] at h
          by_cases hij : i = j
          · subst hij
            right
            simp only [if_true, Option.map_eq_map, Option.map_some] at h
            exact ⟨j' :: q, t, rfl, hj, h⟩
          · left
            simpa [hij] using h
    | i' :: p, ih =>
      simp only [modifyL] at h
      match q with
      | [] => simp [getL] at h
      | [j] =>
        left
        simp only [getL] at h ⊢
        rw [List.getElem?_modify] at h
        simpa using h
      | j :: j' :: q =>
        simp only [getL] at h ⊢
        rw [List.getElem?_modify] at h
        rcases hj : F[j]? with _ | t
        · rw [hj] at h; simp at h
        · rw [hj] at h
          by_cases hij : i = j
          · subst hij
            simp only [if_true, Option.map_eq_map, Option.map_some, GTree.kids_node] at h
            rcases ih t.kids (j' :: q) h with h1 | ⟨r, s, h1, h2, h3⟩
            · left; exact h1
            · right
              refine ⟨r, s, by rw [h1]; rfl, ?_, h3⟩
              simp only [getL, hj]
              exact h2
          · left
            simpa [hij] using h

theorem getL_modify_at (g : Cell K → Cell K) : ∀ (p : Path) (F : List (Cell K)) (r : Path) (t : Cell K), getL F p = some t → (getL (g t).kids r).isSome →
    (getL (modifyL g F p) (p ++ r)).isSome := by
  intro p
  induction p with
  | nil => intro F r t h; simp [getL] at h
  | cons i p ih =>
    intro F r t h hr
    match p, ih with
    | [], _ =>
      simp only [getL] at h
      match r, hr with
      | [], hr => simp [getL] at hr
      | j :: r, hr =>
        simp only [modifyL, List.cons_append, List.nil_append, getL]
        rw [List.getElem?_modify, h]
        simpa using hr
    | i' :: p, ih =>
      simp only [getL] at h
      rcases hj : F[i]? with _ | s
      · rw [hj] at h; cases h
      · rw [hj] at h
        have := ih s.kids r t h hr
        simp only [modifyL, List.cons_append, getL]
        rw [List.getElem?_modify, hj]
        simpa using this

theorem split_kids {t : Cell K} (h : Bis t) : ∃ d1 d2, (split t).kids = [.node d1 [], .node d2 []] := by
  obtain ⟨d, ks⟩ := t
  have hn : d.n = 2 := h.n
  exact ⟨⟨d.lo, d.lo + (d.hi - d.lo) / 2, 2, ∅⟩, ⟨d.lo + (d.hi - d.lo) / 2, d.hi, 2, ∅⟩, by simp [split, splitLoop, hn]⟩

theorem ex_split (hF : BisL N X F) {c : IN} {c' : IN} :
    (Ex (step F (.split (pathOf c))) c' → Ex F c' ∨ ∃ k, c' = child c k) := by
  intro h
  rcases getL_modify_inv split (pathOf c) F (pathOf c') h with h1 | ⟨r, t, h1, h2, h3⟩
  · exact .inl h1
  · right
    obtain ⟨d1, d2, hk⟩ := split_kids (cellAt_bis hF h2).2.1
    rw [hk] at h3
    have hr : ∃ k : Fin 2, r = [k.1] := by
      match r, h3 with
      | [], h3 => simp [getL] at h3
      | [0], _ => exact ⟨0, rfl⟩
      | [1], _ => exact ⟨1, rfl⟩
      | [j + 2], h3 => simp [getL] at h3
      | 0 :: j' :: q, h3 => cases q <;> simp [getL] at h3
      | 1 :: j' :: q, h3 => cases q <;> simp [getL] at h3
      | (j + 2) :: j' :: q, h3 => simp [getL] at h3
    obtain ⟨k, rfl⟩ := hr
    refine ⟨k, ?_⟩
    have hp : pathOf (child c k) = pathOf c ++ [k.1] := by simp [pathOf, child]
    rw [← nameOf_pathOf c', h1, ← hp, nameOf_pathOf]

theorem kids_split (hF : BisL N X F) {c : IN} (hc : Ex F c) : kidsAt (step F (.split (pathOf c))) c = true := by
  have hF' : BisL N X (step F (.split (pathOf c))) := hF.step _
  rw [← ex_child hF' c 0]
  obtain ⟨t, ht⟩ := Option.isSome_iff_exists.1 hc
  obtain ⟨d1, d2, hk⟩ := split_kids (cellAt_bis hF ht).2.1
  have := getL_modify_at split (pathOf c) F [0] t ht (by rw [hk]; rfl)
  have hp : pathOf (child c 0) = pathOf c ++ [0] := by simp [pathOf, child]
  unfold Ex cellAt
  rw [hp]
  exact this

/-- One pass over the leaves: all leaves are one level deeper. -/
theorem pass_depth {k : Nat} : ∀ (L : List IN) (F : List (Cell K)), BisL N X F → (∀ c ∈ L, Ex F c ∧ k ≤ c.2.length) →
    (∀ c, Ex F c → kidsAt F c = false → c ∈ L ∨ k + 1 ≤ c.2.length) →
    ∀ c, Ex (L.foldl (fun G c => if kidsAt G c then G else step G (.split (pathOf c))) F) c →
      kidsAt (L.foldl (fun G c => if kidsAt G c then G else step G (.split (pathOf c))) F) c = false → k + 1 ≤ c.2.length := by
  intro L
  induction L with
  | nil =>
    intro F _ _ h c h1 h2
    rcases h c h1 h2 with h3 | h3
    · cases h3
    · exact h3
  | cons a L ih =>
    intro F hF hL h
    rw [List.foldl_cons]
    obtain ⟨ha, hk⟩ := hL a List.mem_cons_self
    by_cases hka : kidsAt F a = true
    · rw [if_pos hka]
      refine ih F hF (fun c hc => hL c (List.mem_cons_of_mem _ hc)) (fun c h1 h2 => ?_)
      rcases h c h1 h2 with h3 | h3
      · rcases List.mem_cons.1 h3 with rfl | h3
        · rw [hka] at h2; cases h2
        · exact .inl h3
      · exact .inr h3
    · rw [if_neg hka]
      have hka' : kidsAt F a = false := by simpa using hka
      have hmono : ∀ c, Ex F c → Ex (step F (.split (pathOf a))) c := by
        intro c hc
        refine ex_modify (fun t ht => .inl ?_) hc
        have : kidsAt F a = t.kids.any (fun _ => true) := by simp [kidsAt, hasCh, cellAt, ht, hasKids]
        rw [hka'] at this
        by_contra hne
        obtain ⟨y, ys, hy⟩ := List.exists_cons_of_ne_nil hne
        rw [hy] at this
        simp at this
      refine ih _ (hF.step _) (fun c hc => ⟨hmono c (hL c (List.mem_cons_of_mem _ hc)).1, (hL c (List.mem_cons_of_mem _ hc)).2⟩) (fun c h1 h2 => ?_)
      rcases ex_split hF h1 with h3 | ⟨i, rfl⟩
      · have h4 : kidsAt F c = false := by
          by_contra hcon
          have h5 : kidsAt F c = true := by simpa using hcon
          have h6 := hmono _ ((ex_child hF c 0).2 h5)
          rw [ex_child (hF.step _) c 0, h2] at h6
          cases h6
        rcases h c h3 h4 with h5 | h5
        · rcases List.mem_cons.1 h5 with rfl | h5
          · rw [kids_split hF ha] at h2; cases h2
          · exact .inl h5
        · exact .inr h5
      · right
        simp only [child, List.length_cons]
        omega

theorem isLeaf_none (c : IN) : IsLeaf (inSub none) F c ↔ Ex F c ∧ kidsAt F c = false := by
  have h1 : ∀ t : Itv K, inSub none t = true := fun _ => rfl
  have h2 : (inSub none : Itv K → Bool) = fun _ => true := funext h1
  unfold IsLeaf kidsAt
  rw [h2]
  refine and_congr_left (fun _ => ?_)
  unfold mkAt Ex
  cases cellAt F c <;> simp

theorem fold_bis : ∀ (L : List IN) (F : List (Cell K)), BisL N X F →
    BisL N X (L.foldl (fun G c => if kidsAt G c then G else step G (.split (pathOf c))) F) := by
  intro L
  induction L with
  | nil => intro F h; exact h
  | cons a L ih =>
    intro F h
    rw [List.foldl_cons]
    split_ifs
    · exact ih F h
    · exact ih _ (h.step _)

/-- After `r` refinements every leaf has level `r` at least. -/
theorem refineN_depth {k : Nat} : ∀ (r : Nat) (F : List (Cell K)), BisL N X F → (∀ c, IsLeaf (inSub none) F c → k ≤ c.2.length) →
    ∃ G, refineN r F = some G ∧ BisL N X G ∧ ∀ c, IsLeaf (inSub none) G c → k + r ≤ c.2.length := by
  intro r
  induction r generalizing k with
  | zero => intro F hF h; exact ⟨F, rfl, hF, h⟩
  | succ r ih =>
    intro F hF h
    obtain ⟨L, h1, _, h3⟩ := leaves1_spec hF (inSub none) (nCells F) le_rfl
    simp only [refineN, refine1, h1, Option.map_some, Option.bind_some]
    obtain ⟨G, g1, g2, g3⟩ := ih (k := k + 1) _ (fold_bis L F hF) (fun c hc => by
      obtain ⟨c1, c2⟩ := (isLeaf_none c).1 hc
      exact pass_depth L F hF (fun c hc => ⟨((isLeaf_none c).1 ((h3 c).1 hc)).1, h c ((h3 c).1 hc)⟩)
        (fun c e1 e2 => .inl ((h3 c).2 ((isLeaf_none c).2 ⟨e1, e2⟩))) c c1 c2)
    exact ⟨G, g1, g2, fun c hc => by have := g3 c hc; omega⟩

variable {close : K → K → Bool} {xs : List K} {per : Bool} {e : ET} {D : DH} {V : DV K}

theorem fold_uses : ∀ (L : List IN) (F : List (Cell K)), UsesV close xs per e F D V → (∀ c ∈ L, Ex F c) →
    UsesV close xs per e (L.foldl (fun G c => if kidsAt G c then G else step G (.split (pathOf c))) F) D V := by
  intro L
  induction L with
  | nil => intro F h _; exact h
  | cons a L ih =>
    intro F h hL
    rw [List.foldl_cons]
    by_cases hk : kidsAt F a = true
    · rw [if_pos hk]
      exact ih F h (fun c hc => hL c (List.mem_cons_of_mem _ hc))
    · rw [if_neg hk]
      have hk' : kidsAt F a = false := by simpa using hk
      refine ih _ (.split F D V a h (hL a List.mem_cons_self) hk') (fun c hc => ?_)
      refine ex_modify (fun t ht => .inl ?_) (hL c (List.mem_cons_of_mem _ hc))
      have : kidsAt F a = t.kids.any (fun _ => true) := by simp [kidsAt, hasCh, cellAt, ht, hasKids]
      rw [hk'] at this
      by_contra hne
      obtain ⟨y, ys, hy⟩ := List.exists_cons_of_ne_nil hne
      rw [hy] at this
      simp at this

theorem refineN_uses : ∀ (r : Nat) (F G : List (Cell K)), UsesV close xs per e F D V → refineN r F = some G → UsesV close xs per e G D V := by
  intro r
  induction r with
  | zero => intro F G h hr; cases hr; exact h
  | succ r ih =>
    intro F G h hr
    obtain ⟨L, h1, _, h3⟩ := leaves1_spec h.uses.bis (inSub none) (nCells F) le_rfl
    simp only [refineN, refine1, h1, Option.map_some, Option.bind_some] at hr
    exact ih _ G (fold_uses L F h (fun c hc => ((isLeaf_none c).1 ((h3 c).1 hc)).1)) hr

theorem box_width (X : Nat → K) (f : Nat) (p : List (Fin 2)) : (box X f p).2 - (box X f p).1 = (X (f + 1) - X f) / 2 ^ p.length := by
  induction p with
  | nil => simp [box]
  | cons k p ih =>
    simp only [box, List.length_cons, pow_succ]
    have h2 : (2 : K) ^ p.length ≠ 0 := pow_ne_zero _ two_ne_zero
    split_ifs
    · have : ((box X f p).1 + (box X f p).2) / 2 - (box X f p).1 = ((box X f p).2 - (box X f p).1) / 2 := by ring
      simp only []
      rw [this, ih]
      field_simp
    · have : (box X f p).2 - ((box X f p).1 + (box X f p).2) / 2 = ((box X f p).2 - (box X f p).1) / 2 := by ring
      simp only []
      rw [this, ih]
      field_simp

theorem pair_le {xs : List K} (hx : xs.IsChain (· < ·)) {a b : K} (ha : xs.head? = some a) (hb : xs.getLast? = some b) {f : Nat} (hf : f < xs.length - 1) :
    a ≤ xs.getD f 0 ∧ xs.getD (f + 1) 0 ≤ b := by
  have hp : xs.Pairwise (· < ·) := List.isChain_iff_pairwise.1 hx
  rw [List.pairwise_iff_getElem] at hp
  have h1 : f + 1 < xs.length := by omega
  have e1 : a = xs[0]'(by omega) := by
    rw [List.head?_eq_getElem?, List.getElem?_eq_getElem (by omega)] at ha
    exact (Option.some.inj ha).symm
  have e2 : b = xs[xs.length - 1]'(by omega) := by
    rw [List.getLast?_eq_getElem?, List.getElem?_eq_getElem (by omega)] at hb
    exact (Option.some.inj hb).symm
  simp only [List.getD_eq_getElem?_getD, List.getElem?_eq_getElem h1, List.getElem?_eq_getElem (show f < xs.length by omega), Option.getD_some]
  rw [e1, e2]
  constructor
  · rcases Nat.eq_zero_or_pos f with h0 | h0
    · subst h0; exact le_rfl
    · exact (hp 0 f (by omega) (by omega) h0).le
  · rcases Nat.lt_or_ge (f + 1) (xs.length - 1) with h0 | h0
    · exact (hp (f + 1) (xs.length - 1) (by omega) (by omega) h0).le
    · have : f + 1 = xs.length - 1 := by omega
      simp only [this]
      exact le_rfl

/-- **C73** (refinement).  `refine` succeeds on every mesh, whatever its history, and after `r` calls no leaf is longer than `(b−a)/2^r`. -/
theorem C73_refine (hx : xs.IsChain (· < ·)) {a b : K} (ha : xs.head? = some a) (hb : xs.getLast? = some b) (h : UsesV close xs per e F D V) (r : Nat) :
    ∃ G, refineN r F = some G ∧ UsesV close xs per e G D V ∧ ∀ c, IsLeaf (inSub none) G c → ∀ lo hi, coord G c 0 = some lo → coord G c 1 = some hi →
      hi - lo ≤ (b - a) / 2 ^ r := by
  obtain ⟨G, g1, g2, g3⟩ := refineN_depth (k := 0) r F h.uses.bis (fun _ _ => Nat.zero_le _)
  refine ⟨G, g1, refineN_uses r F G h g1, fun c hc lo hi h1 h2 => ?_⟩
  have hc' := ((isLeaf_none c).1 hc).1
  rw [coord_box g2 hc'] at h1 h2
  have e1 : (box (fun f => xs.getD f 0) c.1 c.2).1 = lo := Option.some.inj h1
  have e2 : (box (fun f => xs.getD f 0) c.1 c.2).2 = hi := Option.some.inj h2
  rw [← e1, ← e2, box_width]
  have hlt := ex_lt g2 hc'
  obtain ⟨p1, p2⟩ := pair_le hx ha hb hlt
  have hpos := chain_inc hx c.1 hlt
  simp only at hpos
  have hd : r ≤ c.2.length := by have := g3 c hc; omega
  have h2r : (0 : K) < 2 ^ r := by positivity
  have hpw : (2 : K) ^ r ≤ 2 ^ c.2.length := pow_le_pow_right₀ one_le_two hd
  calc (xs.getD (c.1 + 1) 0 - xs.getD c.1 0) / 2 ^ c.2.length ≤ (xs.getD (c.1 + 1) 0 - xs.getD c.1 0) / 2 ^ r :=
        div_le_div_of_nonneg_left (by linarith) h2r hpw
    _ ≤ (b - a) / 2 ^ r := div_le_div_of_nonneg_right (by linarith) h2r.le

end

section
variable {κ f : Polynomial ℝ} {dir neu : ℝ → Bool} {g gN : ℝ → ℝ}

/-- **C73** (convergence under refinement, from the mesh to the solution).  For every problem on `[a, b]` and every `ε > 0` there is a number `R` such
that, for every mesh on `[a, b]` with any history, every continuous element and every sufficiently accurate quadrature rule: refine the mesh `R` times
or more, distribute the dofs, mark the Dirichlet and the flux end, assemble and solve, and the answer is within `ε` of the solution everywhere. -/
theorem C73_refine_converges {a b : ℝ} {v v' : ℝ → ℝ} (hP : Problem a b κ f dir neu g gN v v') {ε : ℝ} (hε : 0 < ε) :
    ∃ R, ∀ (xs : List ℝ), xs.IsChain (· < ·) → 2 ≤ xs.length → xs.head? = some a → xs.getLast? = some b →
      ∀ (e : ET), torn e = false → ∀ (close : ℝ → ℝ → Bool) (F F' : List (Cell ℝ)) (D0 D : DH) (V0 V : DV ℝ) (r m : Nat) (L : List IN) (md mk : VX → Bool)
      (d : List (Nat × ℝ)) (n j S : Nat) (re : List (ℝ × ℝ)) (k kf kn : Kernel ℝ) (keep : Bool) (fuel : Nat) (ord : List ℕ → List ℕ) (y u : List ℝ),
      UsesV close xs false e F D0 V0 → R ≤ r → refineN r F = some F' → nCells F' ≤ m →
      distributeV close false (inSub none) e F' m D0 V0 = some (D, V) → leaves1 (inSub none) F' m = some L →
      markV dir true false (inSub none) F' m (fun _ => false) = some md → addDirichletA (some md) true false (inSub none) F' m e D V g [] = some d →
      markV neu true false (inSub none) F' m (fun _ => false) = some mk →
      Data xs e n j re k kf κ f → sampleSize kn = .ok S → (∀ x, IsEnd xs x → kn.eval S x j = gN x) → SetOrder ord → Ascending ord →
      Solved e k kf kn mk re j F' D L d keep fuel ord y u → ∀ c ∈ L, ∀ x, On F' c x → |fn e F' D u c x - v x| ≤ ε := by
  obtain ⟨δ, hδ, hcon⟩ := C73_converges hP hε
  have hba : 0 < b - a := by have := hP.ord; linarith
  obtain ⟨R, hR⟩ := exists_pow_lt_of_lt_one (show 0 < δ / (b - a) by positivity) (show (1 / 2 : ℝ) < 1 by norm_num)
  refine ⟨R, ?_⟩
  intro xs hx hl ha hb e he close F F' D0 D V0 V r m L md mk d n j S re k kf kn keep fuel ord y u hu hr hF hm h1 h2 h3 h4 h5 hd hS hkn ho hasc hs
  obtain ⟨G, g1, g2, g3⟩ := C73_refine hx ha hb hu r
  rw [hF] at g1
  cases g1
  obtain ⟨D', V', L', md', d', mk', k1, k2, k3, k4, k5, k6, k7, k8⟩ := C72_setup hx hl he g2 hm dir neu g
  rw [h1] at k1
  cases k1
  rw [h2] at k2
  cases k2
  rw [h3] at k3
  cases k3
  rw [h4] at k4
  cases k4
  rw [h5] at k5
  cases k5
  refine hcon close xs e none m F' D V L n j re k kf kn mk d S keep fuel ord y u ha hb k6 hd k8 k7 hS hkn ho hasc (fun c hc lo hi e1 e2 => ?_) hs
  refine (g3 c ((k6.mem c).1 hc) lo hi e1 e2).trans_lt ?_
  have hpw : (1 / 2 : ℝ) ^ r ≤ (1 / 2) ^ R := pow_le_pow_of_le_one (by norm_num) (by norm_num) hr
  have : (b - a) / 2 ^ r = (b - a) * (1 / 2) ^ r := by rw [one_div, inv_pow]; rfl
  rw [this]
  calc (b - a) * (1 / 2) ^ r ≤ (b - a) * (1 / 2) ^ R := mul_le_mul_of_nonneg_left hpw hba.le
    _ < (b - a) * (δ / (b - a)) := mul_lt_mul_of_pos_left hR hba
    _ = δ := by field_simp

end
end Verif.Bvp
