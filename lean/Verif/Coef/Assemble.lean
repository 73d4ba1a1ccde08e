import Verif.Coef.Props
import Verif.Super.Ex

/-!
# C106: problems with finite element coefficients
-/

namespace Verif.Coef
open Verif.Mesh Verif.Dof Verif.Quad Verif.Fem Verif.Form Verif.Asm Verif.Phys Verif.Bnd Verif.Dir Verif.Gal Verif.Cea Verif.Reg

/-- A kernel that may contain finite element functions (assembler.py 767-842). -/
structure KK where
  fs : List Fac
  F : List ℝ → ℝ

/-- What `assemble` collects cell by cell for `Form(k, test=ux, trial=ux)` and `Form(k, test=uy, trial=uy)` (assembler.py 2363-2411), sample `j`.  An entry that raises
is 0 here, as in `Form.contribs`. -/
noncomputable def contribsK (rect : Nat → Bool) (sf : Bool) (s : St ℝ) (D : DH) (e : ET) (k : KK) (rc : List ((ℝ × ℝ) × ℝ)) (re : List (ℝ × ℝ)) (j : Nat) :
    List (CN × List (Loc2 ℝ)) :=
  (leaves sf s).map fun c => (c, [[1, 0], [1, 1]].map fun der => ⟨(rowOf D c).getD [], (rowOf D c).getD [],
    fun a i => (evalBilK rect s k.fs k.F ⟨e, der⟩ ⟨e, der⟩ rc re c a i j).getD 0⟩)

/-- The same for the linear form `Form(k, test=u)` (assembler.py 2363-2411). -/
noncomputable def loadsK (rect : Nat → Bool) (sf : Bool) (s : St ℝ) (D : DH) (e : ET) (k : KK) (rc : List ((ℝ × ℝ) × ℝ)) (re : List (ℝ × ℝ)) (j : Nat) :
    List (CN × List (Loc1 ℝ)) :=
  (leaves sf s).map fun c => (c, [⟨(rowOf D c).getD [], fun a => (evalLinK rect s k.fs k.F ⟨e, [0]⟩ rc re c a j).getD 0⟩])

/-- `assemble` and `solve` for `−div(κ∇u) = f` with the kernels `k` and `kf`, as `Gal.Solved` (assembler.py 2340-2440, 3711-3776). -/
def SolvedK (e : ET) (k kf : KK) (rc : List ((ℝ × ℝ) × ℝ)) (re : List (ℝ × ℝ)) (j : Nat) (rect : Nat → Bool) (sf : Bool) (s : St ℝ) (D : DH)
    (H : List (Linsys.Con ℝ)) (d : List (Nat × ℝ)) (keep : Bool) (fuel : Nat) (ord : List ℕ → List ℕ) (y u : List ℝ) : Prop :=
  Run (consOf H d) D.count (H.map (·.dof)) (d.map (·.1)) keep fuel (contribsK rect sf s D e k rc re j) (loadsK rect sf s D e kf rc re j) ord y u

/-- The functions `gs` are, inside every leaf, what the factors of the kernel stand for. -/
def MeansOn (B : Base ℝ) (rect : Nat → Bool) (sf : Bool) (s : St ℝ) (fs : List Fac) (gs : List (Form.Fn (Pt ℝ))) : Prop :=
  ∀ c ∈ leaves sf s, List.Forall₂ (Means B rect sf s c) fs gs

section
variable {close : Pt ℝ → Pt ℝ → Bool} {B : Base ℝ} {e : ET} {sf : Bool} {s : St ℝ} {D : DH} {V : DV ℝ} {rect : Nat → Bool}
variable {n n2 n1 j : Nat} {rc : List ((ℝ × ℝ) × ℝ)} {re : List (ℝ × ℝ)} {k kf : KK} {gs gf : List (Form.Fn (Pt ℝ))}

theorem opt_val (x : Except Fem.Err ℝ) : x.toOption.getD 0 = Fem.val x := by cases x <;> rfl

/-- **C106** (assembly): what is assembled, and so what is solved, is the same as with the functions themselves as coefficients: for every answer. -/
theorem C106_assembly (hrc : Gauss.rule2 n2 = .ok rc) (hk : MeansOn B rect sf s k.fs gs) (hf : MeansOn B rect sf s kf.fs gf)
    (H : List (Linsys.Con ℝ)) (d : List (Nat × ℝ)) (keep : Bool) (fuel : Nat) (ord : List ℕ → List ℕ) (y u : List ℝ) :
    contribsK rect sf s D e k rc re j = contribs e (laplace ⟨gs, k.F⟩) rc re j (meshCells rect sf s D) ∧
    loadsK rect sf s D e kf rc re j = loads e (source ⟨gf, kf.F⟩) rc re j (meshCells rect sf s D) ∧
    (SolvedK e k kf rc re j rect sf s D H d keep fuel ord y u ↔ Solved e ⟨gs, k.F⟩ ⟨gf, kf.F⟩ rc re j rect sf s D H d keep fuel ord y u) := by
  have h1 : contribsK rect sf s D e k rc re j = contribs e (laplace ⟨gs, k.F⟩) rc re j (meshCells rect sf s D) := by
    unfold contribsK contribs meshCells
    rw [List.map_map]
    refine List.map_congr_left fun c hc => ?_
    have key : ∀ (t : Basis) a i, (evalBilK rect s k.fs k.F t t rc re c a i j).getD 0 = Fem.val (evalBil ⟨gs, k.F⟩ t t .dx none rc re (qcell rect s c) a i j) :=
      fun t a i => by rw [(C104_form (re := re) hrc hc (hk c hc) k.F t t a i j).2.1, opt_val]
    simp only [key]
    rfl
  have h2 : loadsK rect sf s D e kf rc re j = loads e (source ⟨gf, kf.F⟩) rc re j (meshCells rect sf s D) := by
    unfold loadsK loads meshCells
    rw [List.map_map]
    refine List.map_congr_left fun c hc => ?_
    have key : ∀ (t : Basis) a, (evalLinK rect s kf.fs kf.F t rc re c a j).getD 0 = Fem.val (evalLin ⟨gf, kf.F⟩ t .dx none rc re (qcell rect s c) a j) :=
      fun t a => by rw [(C104_form (re := re) hrc hc (hf c hc) kf.F t t a 0 j).1, opt_val]
    simp only [key]
    rfl
  refine ⟨h1, h2, ?_⟩
  unfold SolvedK Solved
  rw [h1, h2]

/-- **C106** (one answer): with a diffusion coefficient made of finite element functions and maps that is positive on the domain, `solve` returns, for every load, if
not all dofs are given or hanging, exactly one answer. -/
theorem C106_one_answer (h : Setting close B e sf s D V rect) (hrc : Gauss.rule2 (n ^ 2) = .ok rc) (hre : Gauss.rule1 n1 = .ok re) (hn : deg e < n)
    (hk : MeansOn B rect sf s k.fs gs) (hf : MeansOn B rect sf s kf.fs gf) {S : Nat} (hS : sampleSize (⟨gs, k.F⟩ : Kernel (Pt ℝ)) = .ok S)
    (hpos : ∀ x : Pt ℝ, (x.x, x.y) ∈ Dom B → 0 < Kernel.eval ⟨gs, k.F⟩ S x j) {g : Pt ℝ → ℝ} {H C : List (Linsys.Con ℝ)}
    (hh : setHanging sf s e D [] = some (H, C)) {d : List (Nat × ℝ)} (hd : BndDict B sf s e D g d) (keep : Bool)
    {ord : List ℕ → List ℕ} (ho : SetOrder ord) (hasc : Ascending ord) :
    (Inner B sf s e D H ↔ ∃ fuel y u, SolvedK e k kf rc re j rect sf s D H d keep fuel ord y u) ∧
    ∃ N, ∀ fuel ≥ N, (Inner B sf s e D H → ∃ y u, SolvedK e k kf rc re j rect sf s D H d keep fuel ord y u) ∧
      ∀ y u y' u', SolvedK e k kf rc re j rect sf s D H d keep fuel ord y u → SolvedK e k kf rc re j rect sf s D H d keep fuel ord y' u' →
        y = y' ∧ u = u' := by
  have key := fun fuel y u => (C106_assembly (e := e) (D := D) (re := re) (j := j) hrc hk hf H d keep fuel ord y u).2.2
  simp only [key]
  exact C69_one_answer h hrc hre hn hS hpos hh hd keep _ ho hasc

end

/-- The constant function 2 and the map `1 + x²`; the product is the coefficient.  The load is a finite element function. -/
theorem ex_means (close : Pt ℝ → Pt ℝ → Bool) : ∃ f f' : Nod, f.e = .DQ0 ∧ f'.e = .Q1 ∧
    MeansOn twoR (fun _ => true) false witR [.nodal f none, .map 1 fun x _ => 1 + x.x ^ 2] [⟨1, fun _ j => if j = 0 then 2 else 0⟩, ⟨1, fun x _ => 1 + x.x ^ 2⟩] ∧
    MeansOn twoR (fun _ => true) false witR [.nodal f' none] [⟨1, fun _ j => if j = 0 then 1 else 0⟩] := by
  obtain ⟨D, L, h⟩ := twoR_space .DQ0 close (fun _ => [2]) 1 [0]
  obtain ⟨D', L', h'⟩ := twoR_space .Q1 close (fun _ => [1]) 1 [0]
  have one : ∀ (e : ET) (D : DH) (L : List Nat) (k : ℝ), Space twoR (fun _ => true) false witR ⟨e, D, [0], none, L, L.map (fun _ => [k]), 1⟩ → ∀ c,
      Means twoR (fun _ => true) false witR c (.nodal ⟨e, D, [0], none, L, L.map (fun _ => [k]), 1⟩ none) ⟨1, fun _ j => if j = 0 then k else 0⟩ := by
    intro e D L k h c
    refine ⟨h, .inl rfl, .inl rfl, rfl, fun j _ _ => if j = 0 then k else 0, fun j => ?_, fun z _ x _ j => by simp [part]⟩
    rcases Nat.eq_zero_or_pos j with rfl | hj
    · exact const_fn h
    · intro c hc z hz
      simp only [if_neg hj.ne']
      refine (fe_const e 0 _ (fun a ha => ?_) z).symm
      have hm : dofAt D c a ∈ L := (h.basis.mem _).2 ⟨c, hc, a, ha, (row_leaf h.wf h.plain h.ready hc).2.2 a ha⟩
      obtain ⟨i, hi, h2⟩ := Verif.Fn.rowAt_ok h.basis.last h.data hm
      have hlt : i < L.length := (List.getElem?_eq_some_iff.1 (Verif.Fn.idxOf?_some hi)).1
      simp only [Verif.Fn.dofVal, hi]
      rw [List.getD_eq_getElem?_getD (l := L.map fun _ => [k]), List.getElem?_map, List.getElem?_eq_getElem hlt]
      obtain ⟨m, rfl⟩ : ∃ m, j = m + 1 := ⟨j - 1, by omega⟩
      rfl
  exact ⟨_, _, rfl, rfl, fun c _ => .cons (one _ D L 2 h c) (.cons rfl .nil), fun c _ => .cons (one _ D' L' 1 h' c) .nil⟩

/-- The coefficient of `ex_means` is positive and has one sample. -/
example : sampleSize (⟨[⟨1, fun _ j => if j = 0 then 2 else 0⟩, ⟨1, fun x _ => 1 + x.x ^ 2⟩], List.prod⟩ : Kernel (Pt ℝ)) = .ok 1 ∧
    ∀ x : Pt ℝ, 0 < Kernel.eval ⟨[⟨1, fun _ j => if j = 0 then 2 else 0⟩, ⟨1, fun x _ => 1 + x.x ^ 2⟩], List.prod⟩ 1 x 0 := by
  refine ⟨rfl, fun x => ?_⟩
  have : Kernel.eval ⟨[⟨1, fun _ j => if j = 0 then 2 else 0⟩, ⟨1, fun x _ => 1 + x.x ^ 2⟩], List.prod⟩ 1 x 0 = 2 * (1 + x.x ^ 2) := by
    simp [Kernel.eval]
  rw [this]
  positivity

end Verif.Coef
