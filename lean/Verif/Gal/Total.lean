import Verif.Gal.Solve
import Verif.Asm.Total

/-!
# The solver returns an answer
-/

namespace Verif.Gal
open Verif.Mesh Verif.Dof Verif.Quad Verif.Fem Verif.Form Verif.Asm Verif.Phys Verif.Bnd Verif.Reg Verif.Dir Verif.Gauss

section
variable {close : Pt ℝ → Pt ℝ → Bool} {B : Base ℝ} {e : ET} {sf : Bool} {s : St ℝ} {D : DH} {V : DV ℝ} {rect : Nat → Bool}
variable {n n1 j : Nat} {rc : List ((ℝ × ℝ) × ℝ)} {re : List (ℝ × ℝ)} {k kf : Kernel (Pt ℝ)} {κ p : Poly}

/-- A node of a leaf that is neither on the boundary nor hanging. -/
def Inner (B : Base ℝ) (sf : Bool) (s : St ℝ) (e : ET) (D : DH) (H : List (Linsys.Con ℝ)) : Prop :=
  ∃ c ∈ leaves sf s, ∃ i < nd2 e, ¬ BndPt B (rootPt c (node e i)) ∧ ∀ x ∈ H, x.dof ≠ dofAt D c i

theorem inner_free (h : Setting close B e sf s D V rect) {g : Pt ℝ → ℝ} {H : List (Linsys.Con ℝ)}
    {d : List (Nat × ℝ)} (hd : BndDict B sf s e D g d) {c : CN} (hc : c ∈ leaves sf s) {i : Nat} (hi : i < nd2 e)
    (hb : ¬ BndPt B (rootPt c (node e i))) (hn : ∀ x ∈ H, x.dof ≠ dofAt D c i) :
    Asm.Free (consOf H d).hng (consOf H d).dir (dofAt D c i) := by
  constructor
  · show Option.map _ _ = none
    rw [Option.map_eq_none_iff, List.find?_eq_none]
    intro x hx
    simpa using hn x hx
  · cases hl : (consOf H d).dir (dofAt D c i) with
    | none => rfl
    | some v =>
      obtain ⟨c', hc', i', hi', hv', ⟨f, l, r, h4, h5, h6, h7, h8⟩, _⟩ := (hd.2 _ v).1 hl
      have hv := (row_leaf h.wf h.plain h.ready.ready hc).2.2 i hi
      have hS := (C34_shared h.wf h.plain h.cont h.ready.ready.uses _ _ _ _ _ _ hi hi' hv hv').1 rfl
      exact absurd ⟨f, l, r, h4, h5, h6, h7, .trans _ _ _ hS h8⟩ hb

theorem combo_congr (S : List ℕ × List ℝ) (v w : ℕ → ℝ) (h : ∀ a ∈ S.1, v a = w a) : combo S v = combo S w := by
  unfold combo
  congr 1
  refine List.map_congr_left (fun x hx => ?_)
  rw [h x.1 (List.of_mem_zip hx).1]

/-- The coefficients of a hanging node add up to one. -/
theorem hang_one (h : Setting close B e sf s D V rect) {H C : List (Linsys.Con ℝ)} (hh : setHanging sf s e D [] = some (H, C))
    {d : List (Nat × ℝ)} {a : Nat} {S : List ℕ × List ℝ} (hS : (consOf H d).hng a = some S) : combo S (fun _ => 1) = 1 := by
  obtain ⟨x, hx, rfl⟩ := Option.map_eq_some_iff.1 hS
  have hm := List.mem_of_find?_eq_some hx
  obtain ⟨c, i, P, l, b, m, a, g, rfl⟩ := ((setHanging_spec h.wf h.plain h.cont h.ready.ready hh).2.2 x).1 hm
  have := g.value h.wf h.cont (h.ready.ready.rdy h.wf h.plain h.cont) (fun _ => (1 : ℝ))
  have h1 : feFn e D (fun _ => (1 : ℝ)) c (castPt ℝ (E i (1 - halfT e b m))) = 1 := fe_const e 1 _ (fun _ _ => rfl) _
  rw [h1] at this
  refine Eq.trans ?_ this
  unfold combo
  rw [List.zip_map', List.map_map]
  rfl

theorem supp_reach {hng : ℕ → Option (List ℕ × List ℝ)} {a : Nat} {S : List ℕ × List ℝ} (hS : hng a = some S) (hl : S.1.length = S.2.length)
    {t : Nat} (ht : t ∈ S.1) : Asm.Reach hng a t := by
  refine Relation.ReflTransGen.single ⟨S, hS, ?_⟩
  obtain ⟨i, hi, rfl⟩ := List.mem_iff_getElem.1 ht
  refine ⟨S.2[i]'(hl ▸ hi), ?_⟩
  have : (S.1.zip S.2)[i]'(by simp; omega) = (S.1[i], S.2[i]'(hl ▸ hi)) := by simp
  rw [← this]
  exact List.getElem_mem _

/-- Some leaf couples a free dof with a Dirichlet dof. -/
theorem mixes (h : Setting close B e sf s D V rect) {g : Pt ℝ → ℝ} {H C : List (Linsys.Con ℝ)}
    (hh : setHanging sf s e D [] = some (H, C)) {d : List (Nat × ℝ)} (hd : BndDict B sf s e D g d) (hI : Inner B sf s e D H) :
    ∃ c ∈ leaves sf s, ∃ i < nd2 e, ∃ i' < nd2 e, ∃ f t, Asm.Free (consOf H d).hng (consOf H d).dir f ∧
      Asm.Reach (consOf H d).hng (dofAt D c i) f ∧ (consOf H d).hng t = none ∧ ((consOf H d).dir t).isSome ∧
      Asm.Reach (consOf H d).hng (dofAt D c i') t := by
  by_contra hno
  have hO := dict_level h hh hd
  have hlen : ∀ a S, (consOf H d).hng a = some S → S.1.length = S.2.length := by
    intro a S hS
    obtain ⟨x, hx, rfl⟩ := Option.map_eq_some_iff.1 hS
    simp
  obtain ⟨v, v1, v2, v3⟩ := exists_conforming (dir := (consOf H d).dir) hO.acyclic (fun _ => (1 : ℝ)) 0
  obtain ⟨hS, hZ⟩ := (test_iff h hh hd v).1 ⟨v1, v2⟩
  have hcell : ∀ c ∈ leaves sf s, (∀ i < nd2 e, v (dofAt D c i) = 0) ∨ ∀ i < nd2 e, v (dofAt D c i) = 1 := by
    intro c hc
    by_cases hD : ∃ i' < nd2 e, ∃ t, (consOf H d).hng t = none ∧ ((consOf H d).dir t).isSome ∧ Asm.Reach (consOf H d).hng (dofAt D c i') t
    · obtain ⟨i', hi', t, ht1, ht2, ht3⟩ := hD
      left
      have hnf : ∀ i < nd2 e, ∀ f, Asm.Reach (consOf H d).hng (dofAt D c i) f → (consOf H d).hng f = none → v f = 0 := by
        intro i hi f hr hn
        cases hf : (consOf H d).dir f with
        | none => exact absurd ⟨c, hc, i, hi, i', hi', f, t, ⟨hn, hf⟩, hr, ht1, ht2, ht3⟩ hno
        | some y => rw [v2 f y hn hf, zero_mul]
      intro i hi
      cases hn : (consOf H d).hng (dofAt D c i) with
      | none => exact hnf i hi _ .refl hn
      | some S =>
        rw [v1 _ S hn, combo_congr S v (fun _ => 0) (fun a ha => hnf i hi a (supp_reach hn (hlen _ S hn) ha) (hO.chain _ S hn a ha))]
        simp [combo]
    · right
      have hnd : ∀ i < nd2 e, ∀ f, Asm.Reach (consOf H d).hng (dofAt D c i) f → (consOf H d).hng f = none → v f = 1 := by
        intro i hi f hr hn
        cases hf : (consOf H d).dir f with
        | none => exact v3 f ⟨hn, hf⟩
        | some y => exact absurd ⟨i, hi, f, hn, by rw [hf]; rfl, hr⟩ hD
      intro i hi
      cases hn : (consOf H d).hng (dofAt D c i) with
      | none => exact hnd i hi _ .refl hn
      | some S =>
        rw [v1 _ S hn, combo_congr S v (fun _ => 1) (fun a ha => hnd i hi a (supp_reach hn (hlen _ S hn) ha) (hO.chain _ S hn a ha))]
        exact hang_one h hh hn
  have hv0 := const_zero h.wf h.plain h.convex h.cont h.ready.ready h.roots h.full hS hZ (fun c hc a ha i hi => by
    rcases hcell c hc with h0 | h0 <;> rw [h0 a ha, h0 i hi])
  obtain ⟨c, hc, i, hi, hb, hn⟩ := hI
  have := v3 _ (inner_free h hd hc hi hb hn)
  rw [hv0 c hc i hi] at this
  exact zero_ne_one this

theorem dof_lt (h : Setting close B e sf s D V rect) {c : CN} (hc : c ∈ leaves sf s) {i : Nat} (hi : i < nd2 e) : dofAt D c i < D.count := by
  have hv := (row_leaf h.wf h.plain h.ready.ready hc).2.2 i hi
  obtain ⟨_, hsnd, _⟩ := h.ready.ready.uses.uses.snd h.wf h.plain
  exact hsnd.lt (c, ⟨i, hi⟩) _ hv

/-- **`solve` returns exactly one answer** on every mesh with an inner dof. -/
theorem total (h : Setting close B e sf s D V rect) (hrc : Gauss.rule2 (n ^ 2) = .ok rc) (hre : Gauss.rule1 n1 = .ok re) (hn : deg e < n)
    {S : Nat} (hS : sampleSize k = .ok S) (hk : ∀ x : Pt ℝ, (x.x, x.y) ∈ Dom B → 0 < k.eval S x j) {g : Pt ℝ → ℝ} {H C : List (Linsys.Con ℝ)}
    (hh : setHanging sf s e D [] = some (H, C)) {d : List (Nat × ℝ)} (hd : BndDict B sf s e D g d) (hI : Inner B sf s e D H) (keep : Bool)
    (kf : Kernel (Pt ℝ)) {ord : List ℕ → List ℕ} (ho : SetOrder ord) (hasc : Ascending ord) :
    ∃ N, ∀ fuel ≥ N, (∃ y u, Run (consOf H d) D.count (H.map (·.dof)) (d.map (·.1)) keep fuel
        (contribs e (laplace k) rc re j (meshCells rect sf s D)) (loads e (source kf) rc re j (meshCells rect sf s D)) ord y u) ∧
      ∀ y u y' u', Run (consOf H d) D.count (H.map (·.dof)) (d.map (·.1)) keep fuel
        (contribs e (laplace k) rc re j (meshCells rect sf s D)) (loads e (source kf) rc re j (meshCells rect sf s D)) ord y u →
        Run (consOf H d) D.count (H.map (·.dof)) (d.map (·.1)) keep fuel
        (contribs e (laplace k) rc re j (meshCells rect sf s D)) (loads e (source kf) rc re j (meshCells rect sf s D)) ord y' u' →
        y = y' ∧ u = u' := by
  refine C54_total (dict_level h hh hd) keep (contribs_same _ _ _ _ _ _) (fun r => (uses2_iff h k r).trans (uses1_iff h kf r).symm)
    ?_ ?_ ?_ ?_ ?_ ?_ ho hasc
  · intro c hc
    simp only [contribs, List.mem_map] at hc
    obtain ⟨_, _, rfl⟩ := hc
    simp [laplace]
  · intro c hc
    simp only [loads, List.mem_map] at hc
    obtain ⟨_, _, rfl⟩ := hc
    simp [source]
  · intro r hr
    obtain ⟨c, hc, i, hi, rfl⟩ := (uses2_iff h k r).1 hr
    exact dof_lt h hc hi
  · intro a ha
    obtain ⟨v, hv⟩ := Option.isSome_iff_exists.1 ((look_mem a).1 ha)
    obtain ⟨c, hc, i, hi, hv, _⟩ := (hd.2 a v).1 hv
    have := dof_lt h hc hi
    unfold dofAt at this
    rw [hv] at this
    exact this
  · intro v hv h0 f r _ hr hrf
    obtain ⟨h1, h2⟩ := (test_iff h hh hd v).1 hv
    obtain ⟨c, hc, i, hi, rfl⟩ := reach_leaf h hh hrf ((uses2_iff h k r).1 hr)
    exact definite h hrc hre hn hS hk h1 h2 h0 c hc i hi
  · obtain ⟨c, hc, i, hi, i', hi', f, t, h1, h2, h3, h4, h5⟩ := mixes h hh hd hI
    refine ⟨_, List.mem_map.2 ⟨_, List.mem_map.2 ⟨c, hc, rfl⟩, rfl⟩, _, List.mem_map.2 ⟨⟨k, [1, 0], .dx, none⟩, List.mem_cons_self, rfl⟩,
      dofAt D c i, (row_mem h hc _).2 ⟨i, hi, rfl⟩, dofAt D c i', (row_mem h hc _).2 ⟨i', hi', rfl⟩, f, t, h1, h2, h3, h4, h5⟩

end
end Verif.Gal
