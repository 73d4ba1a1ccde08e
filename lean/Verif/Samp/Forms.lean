import Verif.Samp.Props

/-!
# C87: forms with sampled kernels
-/

set_option linter.unusedSectionVars false

namespace Verif.Samp
open Verif.Asm Verif.Fem Verif.Form Verif.Gal Verif.Sum Verif.Quad

variable {κ : Type} [DecidableEq κ] {X : Type}

/-- `Kernel.n_samples()` (assembler.py 855-900); the constructor raises if the functions do not fit. -/
def sizeOf (k : Kernel X) : ℕ := match sampleSize k with
  | .ok S => S
  | .error _ => 1

/-- What `assemble` collects for the bilinear forms of a problem (assembler.py 2363-2433): arrays with all samples. -/
noncomputable def matsS (e : ET) (ts : List BTerm) (rc : List ((ℝ × ℝ) × ℝ)) (re : List (ℝ × ℝ)) (cells : List (DCell κ)) :
    List (κ × List (Loc2S ℝ)) :=
  cells.map (fun d => (d.name, ts.map (fun t => ⟨d.dofs, d.dofs, sizeOf t.k, fun a i s =>
    Fem.val (evalBil t.k ⟨e, t.tder⟩ ⟨e, t.uder⟩ t.dmu t.flag rc re d.c a i s)⟩)))

/-- What `assemble` collects for the linear forms of a problem (assembler.py 2363-2411): arrays with all samples. -/
noncomputable def loadsS (e : ET) (ls : List LTerm) (rc : List ((ℝ × ℝ) × ℝ)) (re : List (ℝ × ℝ)) (cells : List (DCell κ)) :
    List (κ × List (Loc1S ℝ)) :=
  cells.map (fun d => (d.name, ls.map (fun t => ⟨d.dofs, sizeOf t.k, fun a s => Fem.val (evalLin t.k ⟨e, t.der⟩ t.dmu t.flag rc re d.c a s)⟩)))

/-! ## Specification -/

/-- The kernel that is left if every function is replaced by its sample `j` (a deterministic function by itself). -/
def kernelAt (j : ℕ) (k : Kernel X) : Kernel X := ⟨k.fs.map fun f => ⟨1, fun x _ => f.f x (pick f.ns j)⟩, k.F⟩

/-- A bilinear term with sample `j` of its functions. -/
def termAt (j : ℕ) (t : BTerm) : BTerm := ⟨kernelAt j t.k, t.tder, t.uder, t.dmu, t.flag⟩

/-- A linear term with sample `j` of its functions. -/
def ltermAt (j : ℕ) (t : LTerm) : LTerm := ⟨kernelAt j t.k, t.der, t.dmu, t.flag⟩

/-- A kernel that can be constructed: its functions have at least one sample, and those with several have equally many. -/
def Good (k : Kernel X) : Prop := (∀ f ∈ k.fs, 1 ≤ f.ns) ∧ ∃ S, sampleSize k = .ok S

/-! ## Theorems -/

theorem fold_size : ∀ (fs : List (Form.Fn X)) (n0 n : ℕ), 1 ≤ n0 → fs.foldlM (fun n f => sizeStep n f.ns) n0 = .ok n →
    1 ≤ n ∧ (n0 = 1 ∨ n = n0) ∧ ∀ f ∈ fs, 1 < f.ns → f.ns = n := by
  intro fs
  induction fs with
  | nil =>
    intro n0 n h0 h
    cases h
    exact ⟨h0, .inr rfl, fun S hS => by cases hS⟩
  | cons S Ss ih =>
    intro n0 n h0 h
    rw [List.foldlM_cons] at h
    unfold sizeStep at h
    split_ifs at h with h1 h2 h3
    · obtain ⟨g1, g2, g3⟩ := ih S.ns n (by omega) h
      refine ⟨g1, .inl h2, fun T hT hT1 => ?_⟩
      rcases List.mem_cons.1 hT with rfl | hT
      · exact (g2.resolve_left (by omega)).symm
      · exact g3 T hT hT1
    · obtain ⟨g1, g2, g3⟩ := ih n0 n h0 h
      refine ⟨g1, g2, fun T hT hT1 => ?_⟩
      rcases List.mem_cons.1 hT with rfl | hT
      · rw [← h3]
        exact (g2.resolve_left h2).symm
      · exact g3 T hT hT1
    · cases h
    · obtain ⟨g1, g2, g3⟩ := ih n0 n h0 h
      refine ⟨g1, g2, fun T hT hT1 => ?_⟩
      rcases List.mem_cons.1 hT with rfl | hT
      · exact absurd hT1 h1
      · exact g3 T hT hT1

theorem size_one (j : ℕ) (k : Kernel X) : sampleSize (kernelAt j k) = .ok 1 := by
  unfold sampleSize kernelAt
  simp only
  generalize k.fs = fs
  induction fs with
  | nil => rfl
  | cons f fs ih =>
    rw [List.map_cons, List.foldlM_cons]
    exact ih

/-- Sample `j` of a kernel. -/
theorem kernel_at {k : Kernel X} (hk : Good k) (j : ℕ) (x : X) : (kernelAt j k).eval 1 x 0 = k.eval (sizeOf k) x (pick (sizeOf k) j) := by
  obtain ⟨h1, S, hS⟩ := hk
  obtain ⟨g1, _, g3⟩ := fold_size k.fs 1 S le_rfl hS
  have e : sizeOf k = S := by simp [sizeOf, hS]
  rw [e]
  unfold Kernel.eval kernelAt
  simp only [List.map_map]
  congr 1
  refine List.map_congr_left (fun f hf => ?_)
  have := h1 f hf
  have := g3 f hf
  simp only [Function.comp, gt_iff_lt, lt_irrefl, false_and, if_false, pick]
  split_ifs with a b c d d <;> first | rfl | omega

theorem bil_at {k : Kernel (Pt ℝ)} (hk : Good k) (j : ℕ) (tst trl : Basis) (dmu : Dmu) (flag : Option Nat) (rc : List ((ℝ × ℝ) × ℝ))
    (re : List (ℝ × ℝ)) (c : QCell) (a i : ℕ) :
    evalBil (kernelAt j k) tst trl dmu flag rc re c a i 0 = evalBil k tst trl dmu flag rc re c a i (pick (sizeOf k) j) := by
  obtain ⟨S, hS⟩ := hk.2
  have e : sizeOf k = S := by simp [sizeOf, hS]
  unfold evalBil
  rw [size_one, hS]
  simp only [bind, Except.bind, kernel_at hk, e]

theorem lin_at {k : Kernel (Pt ℝ)} (hk : Good k) (j : ℕ) (tst : Basis) (dmu : Dmu) (flag : Option Nat) (rc : List ((ℝ × ℝ) × ℝ))
    (re : List (ℝ × ℝ)) (c : QCell) (a : ℕ) :
    evalLin (kernelAt j k) tst dmu flag rc re c a 0 = evalLin k tst dmu flag rc re c a (pick (sizeOf k) j) := by
  obtain ⟨S, hS⟩ := hk.2
  have e : sizeOf k = S := by simp [sizeOf, hS]
  unfold evalLin
  rw [size_one, hS]
  simp only [bind, Except.bind, kernel_at hk, e]

theorem mats_at {e : ET} {ts : List BTerm} (hk : ∀ t ∈ ts, Good t.k) (rc : List ((ℝ × ℝ) × ℝ)) (re : List (ℝ × ℝ)) (cells : List (DCell κ)) (j : ℕ) :
    at2 (matsS e ts rc re cells) j = mats e (ts.map (termAt j)) rc re 0 cells := by
  unfold at2 matsS mats
  rw [List.map_map]
  refine List.map_congr_left (fun d _ => ?_)
  simp only [Function.comp, List.map_map]
  congr 1
  refine List.map_congr_left (fun t ht => ?_)
  simp only [Function.comp, Loc2S.at, termAt, bil_at (hk t ht)]

theorem loads_at {e : ET} {ls : List LTerm} (hk : ∀ t ∈ ls, Good t.k) (rc : List ((ℝ × ℝ) × ℝ)) (re : List (ℝ × ℝ)) (cells : List (DCell κ)) (j : ℕ) :
    at1 (loadsS e ls rc re cells) j = loads e (ls.map (ltermAt j)) rc re 0 cells := by
  unfold at1 loadsS loads
  rw [List.map_map]
  refine List.map_congr_left (fun d _ => ?_)
  simp only [Function.comp, List.map_map]
  congr 1
  refine List.map_congr_left (fun t ht => ?_)
  simp only [Function.comp, Loc1S.at, ltermAt, lin_at (hk t ht)]

theorem good_size {k : Kernel X} (hk : Good k) : 1 ≤ sizeOf k := by
  obtain ⟨S, hS⟩ := hk.2
  obtain ⟨g1, _, _⟩ := fold_size k.fs 1 S le_rfl hS
  simpa [sizeOf, hS] using g1

/-- **C87 (matrices of sampled problems).**  A problem with any bilinear forms over cells, edges and vertices, any kernels with one or `n`
samples, any hanging nodes, Dirichlet values with one or `n` samples: sample `j` of what is assembled is what is assembled, as one
deterministic problem, after every function is replaced by its sample `j`. -/
theorem C87_matrix {C : ConsS ℝ} {n : ℕ} {e : ET} {ts : List BTerm} (hk : ∀ t ∈ ts, Good t.k) (hn : sizes (ts.map fun t => sizeOf t.k) = .ok n)
    (hC : C.Fits n) (rc : List ((ℝ × ℝ) × ℝ)) (re : List (ℝ × ℝ)) (cells : List (DCell κ)) (keep : Bool) (fuel : ℕ)
    {ord : List ℕ → List ℕ} (ho : SetOrder ord) {j : ℕ} (hj : j < n) :
    (assemble2S C n keep fuel (matsS e ts rc re cells) >>= consolidate2S ord n).map (·.sample j) =
      assemble2 (C.at j) keep fuel (mats e (ts.map (termAt j)) rc re 0 cells) >>= AF2.consolidate ord := by
  have h1 : ∀ S ∈ ts.map (fun t => sizeOf t.k), 1 ≤ S := fun S hS => by
    obtain ⟨t, ht, rfl⟩ := List.mem_map.1 hS
    exact good_size (hk t ht)
  rw [← mats_at hk]
  refine C87_bilinear ((C87_sizes _).2 n hn).1 hC keep fuel ho _ (fun c hc l hl => ?_) hj
  unfold matsS at hc
  obtain ⟨d, _, rfl⟩ := List.mem_map.1 hc
  obtain ⟨t, ht, rfl⟩ := List.mem_map.1 hl
  exact sizes_cell hn h1 _ (List.mem_map.2 ⟨t, ht, rfl⟩)

/-- **C87 (vectors of sampled problems), partial.**  The same for load vectors, if all kernels have `n` samples.  Missing: see
`C87_linear_violated`. -/
theorem C87_vector_partial {C : ConsS ℝ} {n : ℕ} {e : ET} {ls : List LTerm} (hk : ∀ t ∈ ls, Good t.k) (hn : ∀ t ∈ ls, sizeOf t.k = n)
    (rc : List ((ℝ × ℝ) × ℝ)) (re : List (ℝ × ℝ)) (cells : List (DCell κ)) (keep : Bool) (fuel : ℕ)
    {ord : List ℕ → List ℕ} (ho : SetOrder ord) {j : ℕ} (hj : j < n) :
    (assemble1S C keep fuel (loadsS e ls rc re cells) >>= consolidate1S ord n).map (fun s => (s.1, s.2.getD j [])) =
      assemble1 (C.at j) keep fuel (loads e (ls.map (ltermAt j)) rc re 0 cells) >>= AF1.consolidate ord := by
  rw [← loads_at hk]
  refine C87_linear_partial keep fuel ho _ (fun c hc l hl => ?_) hj
  unfold loadsS at hc
  obtain ⟨d, _, rfl⟩ := List.mem_map.1 hc
  obtain ⟨t, ht, rfl⟩ := List.mem_map.1 hl
  exact hn t ht

/-- The hypotheses hold for a sum of a deterministic form and a form with two samples, where the products of a sampled and a deterministic
function are allowed too. -/
example : (∀ t ∈ [(⟨⟨[⟨1, fun _ _ => 1⟩], fun l => l.sum⟩, [0], [0], .dx, none⟩ : BTerm),
      ⟨⟨[⟨2, fun x s => x.x + s⟩, ⟨1, fun x _ => x.y⟩], fun l => l.prod⟩, [1, 0], [1, 0], .dx, none⟩], Good t.k) ∧
    sizes ([(⟨⟨[⟨1, fun _ _ => 1⟩], fun l => l.sum⟩, [0], [0], .dx, none⟩ : BTerm),
      ⟨⟨[⟨2, fun x s => x.x + s⟩, ⟨1, fun x _ => x.y⟩], fun l => l.prod⟩, [1, 0], [1, 0], .dx, none⟩].map fun t => sizeOf t.k) = .ok 2 ∧
    (⟨fun a => if a = 3 then some ([1, 2], [1 / 2, 1 / 2]) else none, fun a => if a = 1 then some [1, 2] else if a = 7 then some [5] else none⟩ :
      ConsS ℝ).Fits 2 := by
  refine ⟨?_, rfl, ?_⟩
  · intro t ht
    simp only [List.mem_cons, List.not_mem_nil, or_false] at ht
    rcases ht with rfl | rfl
    · exact ⟨by simp, 1, rfl⟩
    · exact ⟨by simp, 2, rfl⟩
  · intro a g hg
    simp only at hg
    split_ifs at hg <;> cases hg <;> simp

end Verif.Samp
