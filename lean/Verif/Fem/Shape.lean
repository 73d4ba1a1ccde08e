import Verif.Fem.Derivs
import Verif.Quad.Biject
import Verif.OneD.Model
import Mathlib.Analysis.Calculus.InverseFunctionTheorem.FDeriv
import Mathlib.Analysis.Calculus.ContDiff.RCLike
import Mathlib.Analysis.Calculus.ContDiff.Operations
import Mathlib.Analysis.Calculus.Deriv.Inv

/-!
# C55: `QuadFE.shape` on a cell returns derivatives with respect to the physical coordinates

Model of fem.py 478-678 and the theorems.  The arrays are handled entry by entry: one point, one local
dof, one requested derivative.
-/

namespace Verif.Fem

open Verif.Quad Topology

section Model
variable {K : Type} [Field K] [LinearOrder K]

/-- A `(2,2)` array entry `Ji[i,j]`; other indices raise `IndexError`. -/
def ent (J : (K × K) × (K × K)) (i j : Nat) : Except Err K :=
  match i, j with
  | 0, 0 => .ok J.1.1
  | 0, 1 => .ok J.1.2
  | 1, 0 => .ok J.2.1
  | 1, 1 => .ok J.2.2
  | _, _ => .error .index

/-- An entry `Hi[i,j,k]` of the array stored in `mg['hess_p2r']` (mesh.py 4086-4094):
`h[:,:,0] = [[sxx,sxy],[sxy,syy]]`, `h[:,:,1] = [[txx,txy],[txy,tyy]]`. -/
def hent (H : (K × K × K) × (K × K × K)) (i j k : Nat) : Except Err K :=
  match k with
  | 0 => ent ((H.1.1, H.1.2.1), (H.1.2.1, H.1.2.2)) i j
  | 1 => ent ((H.2.1, H.2.2.1), (H.2.2.1, H.2.2.2)) i j
  | _ => .error .index

/-- `shape(x_ref, cell, derivatives=der, jac_p2r, hess_p2r, local_dofs=[n])` for a two-dimensional
element (fem.py 512-676), one point.  `cell = some b` is a `QuadCell` whose `is_rectangle()` is `b`.
A derivative order above 2 is not rejected: the entry stays 0 (line 575). -/
def shape2 (e : ET) (x : K × K) (cell : Option Bool) (der : List Nat)
    (jac : Option ((K × K) × (K × K))) (hess : Option ((K × K × K) × (K × K × K))) (n : Nat) :
    Except Err K :=
  if ¬ (0 ≤ x.1 ∧ 0 ≤ x.2) then .error .assertion
  else if ¬ (x.1 ≤ 1 ∧ x.2 ≤ 1) then .error .assertion
  else
    match cell with
    | none =>
      match der with
      | 0 :: _ => phi2 e n x
      | 1 :: v :: _ => dphi2 e n x v
      | [2, v, w] => d2phi2 e n x v w
      | [] => .error .index
      | [1] => .error .index
      | 2 :: _ => .error .value
      | _ => .ok 0
    | some rect =>
      match der with
      | 0 :: _ => phi2 e n x
      | 1 :: v :: _ =>
        match jac with
        | none => .error .assertion
        | some J =>
          if rect then do
            let c ← ent J v v
            let d ← dphi2 e n x v
            pure (c * d)
          else do
            let ds ← ent J 0 v
            let dt ← ent J 1 v
            let Ns ← dphi2 e n x 0
            let Nt ← dphi2 e n x 1
            pure (Ns * ds + Nt * dt)
      | [2, v, w] =>
        match jac, hess with
        | none, _ => .error .assertion
        | _, none => .error .assertion
        | some J, some H =>
          if rect then do
            let ci ← ent J v v
            let cj ← ent J w w
            let d ← d2phi2 e n x v w
            pure (ci * cj * d)
          else do
            let sxi ← ent J 0 v
            let sxj ← ent J 0 w
            let txi ← ent J 1 v
            let txj ← ent J 1 w
            let sxixj ← hent H v w 0
            let txixj ← hent H v w 1
            let Ns ← dphi2 e n x 0
            let Nt ← dphi2 e n x 1
            let Nss ← d2phi2 e n x 0 0
            let Nst ← d2phi2 e n x 0 1
            let Ntt ← d2phi2 e n x 1 1
            pure (Nss * sxj * sxi + Nst * txj * sxi + Ns * sxixj + Nst * sxj * txi + Ntt * txj * txi
              + Nt * txixj)
      | [] => .error .index
      | [1] => .error .index
      | 2 :: _ => .error .value
      | _ => .ok 0

/-- `shape` for a one-dimensional element on an `Interval`, one point (fem.py 512-676). -/
def shape1 (e : ET) (x : K) (der : List Nat) (jac : Option K) (hess : Option K) (n : Nat) :
    Except Err K :=
  if ¬ 0 ≤ x then .error .assertion
  else if ¬ x ≤ 1 then .error .assertion
  else
    match der with
    | 0 :: _ => phi1 e n x
    | 1 :: _ :: _ =>
      match jac with
      | none => .error .assertion
      | some J => do
        let d ← dphi1 e n x
        pure (J * d)
    | 2 :: _ :: _ =>
      match jac, hess with
      | none, _ => .error .assertion
      | _, none => .error .assertion
      | some J, some _ => do
        let d ← d2phi1 e n x
        pure (J ^ 2 * d)
    | [] => .error .index
    | [1] => .error .index
    | [2] => .error .index
    | _ => .ok 0

/-- `shape(x_ref, derivatives=(1,0))` for a one-dimensional element without cell (fem.py 616-618): `dphi`
returns an array of shape `(n_points,1)`, which can be stored in `p[:,i]` only for one point. -/
def shape1Free (e : ET) (x : List K) (n : Nat) : Except Err (List K) :=
  if x.any (fun x => ¬ 0 ≤ x) then .error .assertion
  else if x.any (fun x => ¬ x ≤ 1) then .error .assertion
  else
    match x with
    | [a] => do
      let d ← dphi1 e n a
      pure [d]
    | _ => .error .value

end Model

/-! ## Specification -/

/-- `d` is the partial derivative of `u` with respect to coordinate `v` (0: `x`, 1: `y`) at `p`. -/
def IsPartial (u : ℝ × ℝ → ℝ) (v : Nat) (d : ℝ) (p : ℝ × ℝ) : Prop :=
  match v with
  | 0 => HasDerivAt (fun t => u (t, p.2)) d p.1
  | 1 => HasDerivAt (fun t => u (p.1, t)) d p.2
  | _ => False

/-- `u` is, near the image of `r`, the function on the physical cell `q` whose value at the image of a
reference point is the value of basis function `n` there. -/
def IsMapped (q : QD ℝ) (e : ET) (n : Nat) (r : ℝ × ℝ) (u : ℝ × ℝ → ℝ) : Prop :=
  ∀ᶠ s in 𝓝 r, u (F q s) = val (phi2 e n s)

/-! ## Gradients -/

/-- `g` is differentiable at `r` with gradient `(a, b)`. -/
def HasGrad (g : ℝ × ℝ → ℝ) (a b : ℝ) (r : ℝ × ℝ) : Prop :=
  HasFDerivAt g (a • ContinuousLinearMap.fst ℝ ℝ ℝ + b • ContinuousLinearMap.snd ℝ ℝ ℝ) r

namespace HasGrad

variable {g h : ℝ × ℝ → ℝ} {a b c d : ℝ} {r : ℝ × ℝ}

theorem congr (H : HasGrad g a b r) (h1 : a = c) (h2 : b = d) : HasGrad g c d r := by
  rw [← h1, ← h2]; exact H

theorem add (H : HasGrad g a b r) (I : HasGrad h c d r) :
    HasGrad (fun s => g s + h s) (a + c) (b + d) r := by
  refine (HasFDerivAt.add H I).congr_fderiv ?_
  ext <;> simp

theorem sub (H : HasGrad g a b r) (I : HasGrad h c d r) :
    HasGrad (fun s => g s - h s) (a - c) (b - d) r := by
  refine (HasFDerivAt.sub H I).congr_fderiv ?_
  ext <;> simp

theorem neg (H : HasGrad g a b r) : HasGrad (fun s => -g s) (-a) (-b) r := by
  refine (HasFDerivAt.neg H).congr_fderiv ?_
  ext <;> simp

theorem mul (H : HasGrad g a b r) (I : HasGrad h c d r) :
    HasGrad (fun s => g s * h s) (g r * c + h r * a) (g r * d + h r * b) r := by
  refine (HasFDerivAt.mul H I).congr_fderiv ?_
  ext <;> simp

theorem inv (I : HasGrad h c d r) (h0 : h r ≠ 0) :
    HasGrad (fun s => (h s)⁻¹) (-c / h r ^ 2) (-d / h r ^ 2) r := by
  have := HasDerivAt.comp_hasFDerivAt r (hasDerivAt_inv h0) I
  refine this.congr_fderiv ?_
  ext <;> simp <;> field_simp

theorem div (H : HasGrad g a b r) (I : HasGrad h c d r) (h0 : h r ≠ 0) :
    HasGrad (fun s => g s / h s) ((a * h r - g r * c) / h r ^ 2) ((b * h r - g r * d) / h r ^ 2) r := by
  have := H.mul (I.inv h0)
  simp only [div_eq_mul_inv (g _)]
  refine this.congr ?_ ?_ <;> field_simp <;> ring

theorem tensor {A B : ℝ → ℝ} {A' B' : ℝ} (hA : HasDerivAt A A' r.1) (hB : HasDerivAt B B' r.2) :
    HasGrad (fun s => A s.1 * B s.2) (A' * B r.2) (A r.1 * B') r := by
  have h1 : HasFDerivAt (fun s : ℝ × ℝ => A s.1) (A' • ContinuousLinearMap.fst ℝ ℝ ℝ) r :=
    HasDerivAt.comp_hasFDerivAt r hA hasFDerivAt_fst
  have h2 : HasFDerivAt (fun s : ℝ × ℝ => B s.2) (B' • ContinuousLinearMap.snd ℝ ℝ ℝ) r :=
    HasDerivAt.comp_hasFDerivAt r hB hasFDerivAt_snd
  refine (HasFDerivAt.mul h1 h2).congr_fderiv ?_
  ext <;> simp [mul_comm]

theorem partial_x (H : HasGrad g a b r) : IsPartial g 0 a r := by
  have h1 : HasDerivAt (fun t : ℝ => (t, r.2)) ((1 : ℝ), (0 : ℝ)) r.1 :=
    (hasDerivAt_id r.1).prodMk (hasDerivAt_const r.1 r.2)
  have := HasFDerivAt.comp_hasDerivAt (x := r.1) (f := fun t : ℝ => (t, r.2)) H h1
  simpa [IsPartial, Function.comp_def] using this

theorem partial_y (H : HasGrad g a b r) : IsPartial g 1 b r := by
  have h1 : HasDerivAt (fun t : ℝ => (r.1, t)) ((0 : ℝ), (1 : ℝ)) r.2 :=
    (hasDerivAt_const r.2 r.1).prodMk (hasDerivAt_id r.2)
  have := HasFDerivAt.comp_hasDerivAt (x := r.2) (f := fun t : ℝ => (r.1, t)) H h1
  simpa [IsPartial, Function.comp_def] using this

end HasGrad

theorem grad_affine (a b c : ℝ) (r : ℝ × ℝ) : HasGrad (fun s => a + b * s.1 + c * s.2) b c r := by
  have := hasFDerivAt_bilin a b c 0 r
  refine (this.congr_of_eventuallyEq (Filter.Eventually.of_forall fun s => by simp)).congr_fderiv ?_
  ext <;> simp

theorem grad_jxs (q : QD ℝ) (r : ℝ × ℝ) : HasGrad (fun s => jxs q ⟨s.1, s.2⟩) 0 (hDx q) r := by
  have := grad_affine (q.v1.x - q.v0.x) 0 (hDx q) r
  refine HasFDerivAt.congr_of_eventuallyEq this (Filter.Eventually.of_forall fun s => ?_)
  simp only [jxs, hDx]; ring

theorem grad_jys (q : QD ℝ) (r : ℝ × ℝ) : HasGrad (fun s => jys q ⟨s.1, s.2⟩) 0 (hDy q) r := by
  have := grad_affine (q.v1.y - q.v0.y) 0 (hDy q) r
  refine HasFDerivAt.congr_of_eventuallyEq this (Filter.Eventually.of_forall fun s => ?_)
  simp only [jys, hDy]; ring

theorem grad_jxt (q : QD ℝ) (r : ℝ × ℝ) : HasGrad (fun s => jxt q ⟨s.1, s.2⟩) (hDx q) 0 r := by
  have := grad_affine (q.v3.x - q.v0.x) (hDx q) 0 r
  refine HasFDerivAt.congr_of_eventuallyEq this (Filter.Eventually.of_forall fun s => ?_)
  simp only [jxt, hDx]; ring

theorem grad_jyt (q : QD ℝ) (r : ℝ × ℝ) : HasGrad (fun s => jyt q ⟨s.1, s.2⟩) (hDy q) 0 r := by
  have := grad_affine (q.v3.y - q.v0.y) (hDy q) 0 r
  refine HasFDerivAt.congr_of_eventuallyEq this (Filter.Eventually.of_forall fun s => ?_)
  simp only [jyt, hDy]; ring

theorem grad_det (q : QD ℝ) (r : ℝ × ℝ) : HasGrad (fun s => det q ⟨s.1, s.2⟩)
    (jxs q ⟨r.1, r.2⟩ * hDy q - jys q ⟨r.1, r.2⟩ * hDx q)
    (jyt q ⟨r.1, r.2⟩ * hDx q - jxt q ⟨r.1, r.2⟩ * hDy q) r := by
  refine (((grad_jxs q r).mul (grad_jyt q r)).sub ((grad_jxt q r).mul (grad_jys q r))).congr ?_ ?_ <;> ring

/-- Strict differentiability of the map. -/
theorem strict_F (q : QD ℝ) (r : ℝ × ℝ) : HasStrictFDerivAt (F q) (dF q r) r := by
  have hc : ContDiff ℝ 1 (F q) := by
    unfold F
    simp only [toPhys]
    fun_prop
  exact hc.contDiffAt.hasStrictFDerivAt' (hasFDerivAt_F q r) (by norm_num)

/-- The inverse Jacobian as a linear map. -/
noncomputable def dG (q : QD ℝ) (r : ℝ × ℝ) : ℝ × ℝ →L[ℝ] ℝ × ℝ :=
  let B := jacP2R q ⟨r.1, r.2⟩
  (B.1.1 • ContinuousLinearMap.fst ℝ ℝ ℝ + B.1.2 • ContinuousLinearMap.snd ℝ ℝ ℝ).prod
  (B.2.1 • ContinuousLinearMap.fst ℝ ℝ ℝ + B.2.2 • ContinuousLinearMap.snd ℝ ℝ ℝ)

/-- The Jacobian as an equivalence. -/
noncomputable def eF (q : QD ℝ) (r : ℝ × ℝ) (hd : det q ⟨r.1, r.2⟩ ≠ 0) : (ℝ × ℝ) ≃L[ℝ] ℝ × ℝ :=
  ContinuousLinearEquiv.equivOfInverse (dF q r) (dG q r)
    (fun z => by
      obtain ⟨⟨h1, h2, h3, h4⟩, -⟩ := C21_jacobian_inverse q ⟨r.1, r.2⟩ hd
      simp only [jacR2P] at h1 h2 h3 h4
      ext <;> simp [dF, dG]
      · linear_combination z.1 * h1 + z.2 * h2
      · linear_combination z.1 * h3 + z.2 * h4)
    (fun z => by
      obtain ⟨-, h1, h2, h3, h4⟩ := C21_jacobian_inverse q ⟨r.1, r.2⟩ hd
      simp only [jacR2P] at h1 h2 h3 h4
      ext <;> simp [dF, dG]
      · linear_combination z.1 * h1 + z.2 * h2
      · linear_combination z.1 * h3 + z.2 * h4)

/-- A function that is known in reference coordinates has, in physical coordinates, the gradient
multiplied with the inverse Jacobian. -/
theorem grad_physical (q : QD ℝ) (r : ℝ × ℝ) (hd : det q ⟨r.1, r.2⟩ ≠ 0) {g u : ℝ × ℝ → ℝ} {a b : ℝ}
    (hg : HasGrad g a b r) (hu : ∀ᶠ s in 𝓝 r, u (F q s) = g s) :
    HasGrad u
      (a * (jacP2R q ⟨r.1, r.2⟩).1.1 + b * (jacP2R q ⟨r.1, r.2⟩).2.1)
      (a * (jacP2R q ⟨r.1, r.2⟩).1.2 + b * (jacP2R q ⟨r.1, r.2⟩).2.2) (F q r) := by
  have hs : HasStrictFDerivAt (F q) (eF q r hd : ℝ × ℝ →L[ℝ] ℝ × ℝ) r := strict_F q r
  set G := hs.localInverse (F q) (eF q r hd) r with hG
  have hG0 : G (F q r) = r := hs.localInverse_apply_image
  have hGc : ContinuousAt G (F q r) := hs.localInverse_continuousAt
  have hright : ∀ᶠ y in 𝓝 (F q r), F q (G y) = y := hs.eventually_right_inverse
  have hGd : HasFDerivAt G ((eF q r hd).symm : ℝ × ℝ →L[ℝ] ℝ × ℝ) (F q r) :=
    hs.to_localInverse.hasFDerivAt
  have hev : u =ᶠ[𝓝 (F q r)] fun y => g (G y) := by
    have h1 : Filter.Tendsto G (𝓝 (F q r)) (𝓝 r) := by
      have := hGc; rw [ContinuousAt, hG0] at this; exact this
    filter_upwards [hright, h1.eventually hu] with y e1 e2
    rw [← e2, e1]
  have hg' : HasFDerivAt g (a • ContinuousLinearMap.fst ℝ ℝ ℝ + b • ContinuousLinearMap.snd ℝ ℝ ℝ)
      (G (F q r)) := by rw [hG0]; exact hg
  have hcomp := hg'.comp (F q r) hGd
  refine (hcomp.congr_of_eventuallyEq hev).congr_fderiv ?_
  have hsym : ((eF q r hd).symm : ℝ × ℝ →L[ℝ] ℝ × ℝ) = dG q r := by
    ext1 <;> rfl
  rw [hsym]
  ext <;> simp [dG]

end Verif.Fem
