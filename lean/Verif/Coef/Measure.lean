import Verif.Coef.Assemble
import Verif.Sum.Props

/-!
# C107: assembled matrices and vectors evaluate forms
-/

namespace Verif.Coef
open Verif.Mesh Verif.Dof Verif.Quad Verif.Fem Verif.Form Verif.Asm Verif.Phys Verif.Gal Verif.Bnd Verif.Dir Verif.Cea

/-- A bilinear form `Form(k, test=D₁v, trial=D₂u)` whose kernel may contain finite element functions (assembler.py 1052-1160). -/
structure BTermK where
  k : KK
  tder : List Nat
  uder : List Nat

/-- A linear form `Form(k, test=D₁v)`. -/
structure LTermK where
  k : KK
  tder : List Nat

/-- What `assemble` collects cell by cell for bilinear forms (assembler.py 2363-2433), sample `j`; an entry that raises is 0 here. -/
noncomputable def matsK (rect : Nat → Bool) (sf : Bool) (s : St ℝ) (D : DH) (e : ET) (ts : List BTermK) (rc : List ((ℝ × ℝ) × ℝ)) (re : List (ℝ × ℝ)) (j : Nat) :
    List (CN × List (Loc2 ℝ)) :=
  (leaves sf s).map fun c => (c, ts.map fun t => ⟨(rowOf D c).getD [], (rowOf D c).getD [],
    fun a i => (evalBilK rect s t.k.fs t.k.F ⟨e, t.tder⟩ ⟨e, t.uder⟩ rc re c a i j).getD 0⟩)

/-- The same for linear forms (assembler.py 2363-2411). -/
noncomputable def vecsK (rect : Nat → Bool) (sf : Bool) (s : St ℝ) (D : DH) (e : ET) (ls : List LTermK) (rc : List ((ℝ × ℝ) × ℝ)) (re : List (ℝ × ℝ)) (j : Nat) :
    List (CN × List (Loc1 ℝ)) :=
  (leaves sf s).map fun c => (c, ls.map fun t => ⟨(rowOf D c).getD [], fun a => (evalLinK rect s t.k.fs t.k.F ⟨e, t.tder⟩ rc re c a j).getD 0⟩)

/-- The same for constant forms (assembler.py 2363-2404). -/
noncomputable def constsK (rect : Nat → Bool) (sf : Bool) (s : St ℝ) (ks : List KK) (rc : List ((ℝ × ℝ) × ℝ)) (re : List (ℝ × ℝ)) (j : Nat) :
    List (CN × List (List ℝ)) :=
  (leaves sf s).map fun c => (c, ks.map fun k => [(evalConstK rect s k.fs k.F rc re c j).getD 0])

/-! ## Specification -/

/-- The kernel `k · D₁v · D₂u`: `Kernel(f=k.f + [v, u], F=lambda *args: F(*args[:-2])*args[-2]*args[-1])`, where `v` and `u` have the bases of test and trial function. -/
noncomputable def BTermK.at (t : BTermK) (v u : Nod) : KK :=
  ⟨t.k.fs ++ [.nodal { v with der := t.tder } none, .nodal { u with der := t.uder } none],
    fun l => t.k.F (l.take t.k.fs.length) * l.getD t.k.fs.length 0 * l.getD (t.k.fs.length + 1) 0⟩

/-- The kernel `k · D₁v`. -/
noncomputable def LTermK.at (t : LTermK) (v : Nod) : KK :=
  ⟨t.k.fs ++ [.nodal { v with der := t.tder } none], fun l => t.k.F (l.take t.k.fs.length) * l.getD t.k.fs.length 0⟩

/-- `v` is a deterministic function in the space of the element `e` and the dofs `D`. -/
structure InSpace (B : Base ℝ) (rect : Nat → Bool) (sf : Bool) (s : St ℝ) (e : ET) (D : DH) (v : Nod) : Prop where
  space : Space B rect sf s v
  elem : v.e = e
  dofs : v.D = D
  one : v.m = 1

/-- The value of a function at a dof. -/
noncomputable def Nod.val (v : Nod) (a : Nat) : ℝ := Verif.Fn.dofVal v.L v.data 0 a

/-! ## Proofs -/

theorem allSome_append {α : Type} (l : List (Option α)) (m : List α) : allSome (l ++ m.map some) = (allSome l).map (· ++ m) := by
  induction l with
  | nil =>
    have : allSome (m.map some) = some m := by
      have := Verif.Fn.allSome_map m some id (fun _ _ => rfl)
      rwa [List.map_id] at this
    simpa [allSome] using this
  | cons a l ih =>
    cases a with
    | none => rfl
    | some a =>
      simp only [List.cons_append, allSome, ih, Option.map_map]
      rfl

theorem allSome_len {α : Type} {l : List (Option α)} {m : List α} (h : allSome l = some m) : m.length = l.length := by
  induction l generalizing m with
  | nil => cases h; rfl
  | cons a l ih =>
    cases a with
    | none => cases h
    | some a =>
      obtain ⟨m', h', rfl⟩ := Option.map_eq_some_iff.1 h
      simp [ih h']

theorem allSome_none {α : Type} {l : List (Option α)} (h : none ∈ l) : allSome l = none := by
  induction l with
  | nil => cases h
  | cons a l ih =>
    cases a with
    | none => rfl
    | some a =>
      have h' : none ∈ l := by simpa using h
      simp [allSome, ih h']

section
variable {B : Base ℝ} {s : St ℝ} {sf : Bool} {rect : Nat → Bool} {e : ET} {D : DH} {v u : Nod} {c : CN} {S j : Nat}
variable {n2 : Nat} {rc : List ((ℝ × ℝ) × ℝ)} {re : List (ℝ × ℝ)}

theorem nod_at (hv : InSpace B rect sf s e D v) {der : List Nat} (hd : ValidDer der) (hc : c ∈ leaves sf s) (hj : j < S) {p : QP} (hp : Form.InSq p.ref) :
    facAt rect s c p (if S > 1 ∧ (Fac.nodal { v with der := der } none).ns = 1 then 0 else j) (.nodal { v with der := der } none) =
      some (fieldAt (qcell rect s c) ⟨e, der⟩ (fun a => v.val (dofAt D c a)) p.ref) := by
  have hi : (if S > 1 ∧ (Fac.nodal { v with der := der } none).ns = 1 then 0 else j) = 0 := by
    split
    · rfl
    · rename_i h
      have h1 : (Fac.nodal { v with der := der } none).ns = 1 := hv.one
      have : ¬ S > 1 := fun h2 => h ⟨h2, h1⟩
      omega
  have hsp : Space B rect sf s { v with der := der } :=
    ⟨hv.space.wf, hv.space.plain, hv.space.convex, hv.space.rect, hv.space.ready, hv.space.flag, hv.space.basis, hv.space.data⟩
  rw [hi, leaf_fac hsp hd hc hp 0 none]
  unfold Nod.val
  simp only [hv.elem, hv.dofs]

theorem evalK_lin (hv : InSpace B rect sf s e D v) {t : LTermK} (hd : ValidDer t.tder) (hc : c ∈ leaves sf s) (hj : j < S) {p : QP} (hp : Form.InSq p.ref) :
    evalK rect s (t.at v).fs (t.at v).F S c p j =
      (evalK rect s t.k.fs t.k.F S c p j).map fun k => k * fieldAt (qcell rect s c) ⟨e, t.tder⟩ (fun a => v.val (dofAt D c a)) p.ref := by
  unfold evalK LTermK.at
  simp only [List.map_append, List.map_cons, List.map_nil]
  rw [nod_at hv hd hc hj hp, ← List.map_singleton (f := some), allSome_append]
  cases h : allSome (t.k.fs.map fun f => facAt rect s c p (if S > 1 ∧ f.ns = 1 then 0 else j) f) with
  | none => rfl
  | some m =>
    have hl : m.length = t.k.fs.length := by simpa using allSome_len h
    simp [← hl]

theorem evalK_bil (hv : InSpace B rect sf s e D v) (hu : InSpace B rect sf s e D u) {t : BTermK} (hd : ValidDer t.tder) (hd' : ValidDer t.uder)
    (hc : c ∈ leaves sf s) (hj : j < S) {p : QP} (hp : Form.InSq p.ref) :
    evalK rect s (t.at v u).fs (t.at v u).F S c p j =
      (evalK rect s t.k.fs t.k.F S c p j).map fun k => k * fieldAt (qcell rect s c) ⟨e, t.tder⟩ (fun a => v.val (dofAt D c a)) p.ref *
        fieldAt (qcell rect s c) ⟨e, t.uder⟩ (fun a => u.val (dofAt D c a)) p.ref := by
  unfold evalK BTermK.at
  simp only [List.map_append, List.map_cons, List.map_nil]
  rw [nod_at hv hd hc hj hp, nod_at hu hd' hc hj hp]
  generalize fieldAt (qcell rect s c) ⟨e, t.tder⟩ (fun a => v.val (dofAt D c a)) p.ref = x
  generalize fieldAt (qcell rect s c) ⟨e, t.uder⟩ (fun a => u.val (dofAt D c a)) p.ref = y
  rw [show [some x, some y] = [x, y].map some from rfl, allSome_append]
  cases h : allSome (t.k.fs.map fun f => facAt rect s c p (if S > 1 ∧ f.ns = 1 then 0 else j) f) with
  | none => rfl
  | some m =>
    have hl : m.length = t.k.fs.length := by simpa using allSome_len h
    simp [← hl]

theorem size_one (fs fs' : List Fac) (h : ∀ f ∈ fs', f.ns = 1) : size (fs ++ fs') = size fs := by
  unfold size
  rw [List.foldlM_append]
  have : ∀ (l : List Fac), (∀ f ∈ l, f.ns = 1) → ∀ n : Nat, l.foldlM (fun n f => sizeStep n f.ns) n = (.ok n : Except Fem.Err Nat) := by
    intro l
    induction l with
    | nil => exact fun _ n => rfl
    | cons f l ih =>
      intro hl n
      rw [List.foldlM_cons, hl f (by simp)]
      exact ih (fun f hf => hl f (by simp [hf])) n
  cases hs : fs.foldlM (fun n f => sizeStep n f.ns) 1 with
  | error e => rfl
  | ok n => exact this fs' h n

/-- One cell, bilinear. -/
theorem cell_bil (hrc : Gauss.rule2 n2 = .ok rc) (hv : InSpace B rect sf s e D v) (hu : InSpace B rect sf s e D u) {t : BTermK} (hd : ValidDer t.tder)
    (hd' : ValidDer t.uder) (hS : ∀ S, size t.k.fs = .ok S → j < S) (hc : c ∈ leaves sf s) :
    ∑ a ∈ Finset.range (nd2 e), ∑ i ∈ Finset.range (nd2 e), v.val (dofAt D c a) *
        (evalBilK rect s t.k.fs t.k.F ⟨e, t.tder⟩ ⟨e, t.uder⟩ rc re c a i j).getD 0 * u.val (dofAt D c i) =
      (evalConstK rect s (t.at v u).fs (t.at v u).F rc re c j).getD 0 := by
  have hsz : size (t.at v u).fs = size t.k.fs := size_one _ _ (by simp [Fac.ns, hv.one, hu.one])
  unfold evalBilK evalConstK
  rw [hsz]
  cases hs : size t.k.fs with
  | error e => simp [Except.toOption]
  | ok S =>
    have hj := hS S hs
    simp only [show (Except.ok S : Except Fem.Err Nat).toOption = some S from rfl, Option.bind_some]
    by_cases hall : ∀ p ∈ qps .dx none rc re (qcell rect s c), ∃ κ, evalK rect s t.k.fs t.k.F S c p j = some κ
    · have hκ : ∀ p ∈ qps .dx none rc re (qcell rect s c), evalK rect s t.k.fs t.k.F S c p j = some ((evalK rect s t.k.fs t.k.F S c p j).getD 0) := by
        intro p hp
        obtain ⟨κ, h⟩ := hall p hp
        rw [h]; rfl
      generalize hK : (fun p => (evalK rect s t.k.fs t.k.F S c p j).getD 0) = K at hκ
      have hκ' : ∀ p ∈ qps .dx none rc re (qcell rect s c), evalK rect s t.k.fs t.k.F S c p j = some (K p) := by
        intro p hp; rw [← hK]; exact hκ p hp
      have e1 : ∀ a ∈ Finset.range (nd2 e), ∀ i ∈ Finset.range (nd2 e),
          (allSome ((qps .dx none rc re (qcell rect s c)).map fun p => (Form.shapeAt (qcell rect s c) ⟨e, t.tder⟩ p.ref a).toOption.bind fun u =>
            (Form.shapeAt (qcell rect s c) ⟨e, t.uder⟩ p.ref i).toOption.bind fun v => (evalK rect s t.k.fs t.k.F S c p j).map fun k => u * (v * (p.w * k)))) =
          some ((qps .dx none rc re (qcell rect s c)).map fun p => Fem.val (Form.shapeAt (qcell rect s c) ⟨e, t.tder⟩ p.ref a) *
            (Fem.val (Form.shapeAt (qcell rect s c) ⟨e, t.uder⟩ p.ref i) * (p.w * K p))) := by
        intro a ha i hi
        refine Verif.Fn.allSome_map _ _ _ fun p hp => ?_
        rw [Form.shapeAt_ok _ ⟨e, t.tder⟩ hd p.ref (qp_sq hrc hp) a (Finset.mem_range.1 ha), Form.shapeAt_ok _ ⟨e, t.uder⟩ hd' p.ref (qp_sq hrc hp) i (Finset.mem_range.1 hi),
          hκ' p hp]
        rfl
      have e2 : allSome ((qps .dx none rc re (qcell rect s c)).map fun p => (evalK rect s (t.at v u).fs (t.at v u).F S c p j).map fun k => p.w * k) =
          some ((qps .dx none rc re (qcell rect s c)).map fun p => p.w * (K p * fieldAt (qcell rect s c) ⟨e, t.tder⟩ (fun a => v.val (dofAt D c a)) p.ref *
            fieldAt (qcell rect s c) ⟨e, t.uder⟩ (fun a => u.val (dofAt D c a)) p.ref)) := by
        refine Verif.Fn.allSome_map _ _ _ fun p hp => ?_
        rw [evalK_bil hv hu hd hd' hc hj (qp_sq hrc hp), hκ' p hp]
        rfl
      rw [e2]
      simp only [Option.map_some, Option.getD_some]
      have e3 : ∀ a ∈ Finset.range (nd2 e), ∀ i ∈ Finset.range (nd2 e), v.val (dofAt D c a) *
          ((allSome ((qps .dx none rc re (qcell rect s c)).map fun p => (Form.shapeAt (qcell rect s c) ⟨e, t.tder⟩ p.ref a).toOption.bind fun u =>
            (Form.shapeAt (qcell rect s c) ⟨e, t.uder⟩ p.ref i).toOption.bind fun v => (evalK rect s t.k.fs t.k.F S c p j).map fun k => u * (v * (p.w * k)))).map
              List.sum).getD 0 * u.val (dofAt D c i) =
          ((qps .dx none rc re (qcell rect s c)).map fun p => v.val (dofAt D c a) * Fem.val (Form.shapeAt (qcell rect s c) ⟨e, t.tder⟩ p.ref a) *
            (u.val (dofAt D c i) * Fem.val (Form.shapeAt (qcell rect s c) ⟨e, t.uder⟩ p.ref i)) * (p.w * K p)).sum := by
        intro a ha i hi
        rw [e1 a ha i hi]
        simp only [Option.map_some, Option.getD_some]
        rw [mul_right_comm, list_sum_mul]
        congr 1
        refine List.map_congr_left fun p _ => ?_
        ring
      rw [Finset.sum_congr rfl fun a ha => Finset.sum_congr rfl (e3 a ha)]
      simp only [sum_finset_list]
      congr 1
      refine List.map_congr_left fun p _ => ?_
      unfold fieldAt
      simp only [← Finset.sum_mul, ← Finset.mul_sum]
      ring
    · push Not at hall
      obtain ⟨p, hp, hno⟩ := hall
      have hn : evalK rect s t.k.fs t.k.F S c p j = none := by
        cases h : evalK rect s t.k.fs t.k.F S c p j with
        | none => rfl
        | some κ => exact absurd h (hno κ)
      rw [allSome_none (List.mem_map.2 ⟨p, hp, by rw [evalK_bil hv hu hd hd' hc hj (qp_sq hrc hp), hn]; rfl⟩)]
      refine Finset.sum_eq_zero fun a _ => Finset.sum_eq_zero fun i _ => ?_
      rw [allSome_none (List.mem_map.2 ⟨p, hp, by
        rw [hn]
        cases Form.shapeAt (qcell rect s c) ⟨e, t.tder⟩ p.ref a <;> cases Form.shapeAt (qcell rect s c) ⟨e, t.uder⟩ p.ref i <;> rfl⟩)]
      simp

/-- One cell, linear. -/
theorem cell_lin (hrc : Gauss.rule2 n2 = .ok rc) (hv : InSpace B rect sf s e D v) {t : LTermK} (hd : ValidDer t.tder)
    (hS : ∀ S, size t.k.fs = .ok S → j < S) (hc : c ∈ leaves sf s) :
    ∑ a ∈ Finset.range (nd2 e), v.val (dofAt D c a) * (evalLinK rect s t.k.fs t.k.F ⟨e, t.tder⟩ rc re c a j).getD 0 =
      (evalConstK rect s (t.at v).fs (t.at v).F rc re c j).getD 0 := by
  have hsz : size (t.at v).fs = size t.k.fs := size_one _ _ (by simp [Fac.ns, hv.one])
  unfold evalLinK evalConstK
  rw [hsz]
  cases hs : size t.k.fs with
  | error e => simp [Except.toOption]
  | ok S =>
    have hj := hS S hs
    simp only [show (Except.ok S : Except Fem.Err Nat).toOption = some S from rfl, Option.bind_some]
    by_cases hall : ∀ p ∈ qps .dx none rc re (qcell rect s c), ∃ κ, evalK rect s t.k.fs t.k.F S c p j = some κ
    · obtain ⟨K, hκ'⟩ : ∃ K : QP → ℝ, ∀ p ∈ qps .dx none rc re (qcell rect s c), evalK rect s t.k.fs t.k.F S c p j = some (K p) := by
        refine ⟨fun p => (evalK rect s t.k.fs t.k.F S c p j).getD 0, fun p hp => ?_⟩
        obtain ⟨κ, h⟩ := hall p hp
        simp only [h]; rfl
      have e2 : allSome ((qps .dx none rc re (qcell rect s c)).map fun p => (evalK rect s (t.at v).fs (t.at v).F S c p j).map fun k => p.w * k) =
          some ((qps .dx none rc re (qcell rect s c)).map fun p => p.w * (K p * fieldAt (qcell rect s c) ⟨e, t.tder⟩ (fun a => v.val (dofAt D c a)) p.ref)) := by
        refine Verif.Fn.allSome_map _ _ _ fun p hp => ?_
        rw [evalK_lin hv hd hc hj (qp_sq hrc hp), hκ' p hp]
        rfl
      rw [e2]
      simp only [Option.map_some, Option.getD_some]
      have e3 : ∀ a ∈ Finset.range (nd2 e), v.val (dofAt D c a) *
          ((allSome ((qps .dx none rc re (qcell rect s c)).map fun p => (Form.shapeAt (qcell rect s c) ⟨e, t.tder⟩ p.ref a).toOption.bind fun u =>
            (evalK rect s t.k.fs t.k.F S c p j).map fun k => u * (p.w * k))).map List.sum).getD 0 =
          ((qps .dx none rc re (qcell rect s c)).map fun p => v.val (dofAt D c a) * Fem.val (Form.shapeAt (qcell rect s c) ⟨e, t.tder⟩ p.ref a) * (p.w * K p)).sum := by
        intro a ha
        rw [Verif.Fn.allSome_map _ _ (fun p => Fem.val (Form.shapeAt (qcell rect s c) ⟨e, t.tder⟩ p.ref a) * (p.w * K p)) fun p hp => by
          rw [Form.shapeAt_ok _ ⟨e, t.tder⟩ hd p.ref (qp_sq hrc hp) a (Finset.mem_range.1 ha), hκ' p hp]
          rfl]
        simp only [Option.map_some, Option.getD_some]
        rw [list_sum_mul]
        congr 1
        refine List.map_congr_left fun p _ => ?_
        ring
      rw [Finset.sum_congr rfl e3]
      simp only [sum_finset_list]
      congr 1
      refine List.map_congr_left fun p _ => ?_
      unfold fieldAt
      simp only [← Finset.sum_mul]
      ring
    · push Not at hall
      obtain ⟨p, hp, hno⟩ := hall
      have hn : evalK rect s t.k.fs t.k.F S c p j = none := by
        cases h : evalK rect s t.k.fs t.k.F S c p j with
        | none => rfl
        | some κ => exact absurd h (hno κ)
      rw [allSome_none (List.mem_map.2 ⟨p, hp, by rw [evalK_lin hv hd hc hj (qp_sq hrc hp), hn]; rfl⟩)]
      refine Finset.sum_eq_zero fun a _ => ?_
      rw [allSome_none (List.mem_map.2 ⟨p, hp, by
        rw [hn]
        cases Form.shapeAt (qcell rect s c) ⟨e, t.tder⟩ p.ref a <;> rfl⟩)]
      simp

variable {C : Cons ℝ} {keep : Bool} {fuel : ℕ} {ord : List ℕ → List ℕ}

theorem consts_names (hB : B.WF) (hs : MReach B s) (ks : List KK) : ((constsK rect sf s ks rc re j).map (·.1)).Nodup := by
  unfold constsK
  rw [List.map_map]
  have := leaves_nodup hB hs sf
  simpa [Function.comp_def] using this

/-- **C107** (matrices): for functions `v`, `u` of the space that satisfy the hanging node constraints, `vᵀ A u` is the assembled constant form with the kernels
`k · D₁v · D₂u`: the matrix evaluates the bilinear form.  Any terms, kernels with maps and finite element functions, derivatives up to the second, every Gauss rule. -/
theorem C107_matrix (hrc : Gauss.rule2 n2 = .ok rc) (hv : InSpace B rect sf s e D v) (hu : InSpace B rect sf s e D u) {ts : List BTermK}
    (hd : ∀ t ∈ ts, ValidDer t.tder ∧ ValidDer t.uder) (hS : ∀ t ∈ ts, ∀ S, size t.k.fs = .ok S → j < S)
    (hC : Sum.Unbound C) (cv : Conforms C.hng v.val) (cu : Conforms C.hng u.val) (ho : SetOrder ord)
    {af2 : AF2 CN ℝ} (h2 : assemble2 C keep fuel (matsK rect sf s D e ts rc re j) = .ok af2) {A : Sys2 ℝ} (hA : af2.consolidate ord = .ok A)
    {af0 : AF0 CN ℝ} (h0 : assemble0 keep (constsK rect sf s (ts.map fun t => t.at v u) rc re j) = .ok af0) :
    ∑ i : Fin A.urow.length, ∑ l : Fin A.ucol.length, v.val A.urow[i] * A.entry i l * u.val A.ucol[l] = af0.consolidate := by
  have hR := hv.space.ready
  rw [hv.elem, hv.dofs] at hR
  rw [C35_constant (consts_names hv.space.wf hR.uses.uses.reach _) h0]
  refine (Sum.matrix_apply hC h2 ho hA cv cu).trans ?_
  unfold total2 matsK constsK
  simp only [List.map_map]
  congr 1
  refine List.map_congr_left fun c hc => ?_
  simp only [Function.comp, List.map_map]
  congr 1
  refine List.map_congr_left fun t ht => ?_
  obtain ⟨l1, l2, _⟩ := row_leaf hv.space.wf hv.space.plain hR hc
  simp only [Function.comp, List.sum_singleton]
  rw [localBilin_range, l1, ← cell_bil (re := re) hrc hv hu (hd t ht).1 (hd t ht).2 (hS t ht) hc]
  exact Finset.sum_congr rfl fun a ha => Finset.sum_congr rfl fun i hi => by rw [l2 a (Finset.mem_range.1 ha), l2 i (Finset.mem_range.1 hi)]

/-- **C107** (vectors): `v · b` is the assembled constant form with the kernels `k · D₁v`. -/
theorem C107_vector (hrc : Gauss.rule2 n2 = .ok rc) (hv : InSpace B rect sf s e D v) {ls : List LTermK}
    (hd : ∀ t ∈ ls, ValidDer t.tder) (hS : ∀ t ∈ ls, ∀ S, size t.k.fs = .ok S → j < S)
    (hC : Sum.Unbound C) (cv : Conforms C.hng v.val) (ho : SetOrder ord)
    {af1 : AF1 CN ℝ} (h1 : assemble1 C keep fuel (vecsK rect sf s D e ls rc re j) = .ok af1) {w : List ℕ} {b : List ℝ} (hb : af1.consolidate ord = .ok (w, b))
    {af0 : AF0 CN ℝ} (h0 : assemble0 keep (constsK rect sf s (ls.map fun t => t.at v) rc re j) = .ok af0) :
    ∑ i : Fin w.length, v.val w[i] * b.getD i 0 = af0.consolidate := by
  have hR := hv.space.ready
  rw [hv.elem, hv.dofs] at hR
  rw [C35_constant (consts_names hv.space.wf hR.uses.uses.reach _) h0]
  refine (Sum.vector_apply hC h1 ho hb cv).trans ?_
  unfold total1 vecsK constsK
  simp only [List.map_map]
  congr 1
  refine List.map_congr_left fun c hc => ?_
  simp only [Function.comp, List.map_map]
  congr 1
  refine List.map_congr_left fun t ht => ?_
  obtain ⟨l1, l2, _⟩ := row_leaf hv.space.wf hv.space.plain hR hc
  simp only [Function.comp, List.sum_singleton]
  rw [localLin_range, l1, ← cell_lin (re := re) hrc hv (hd t ht) (hS t ht) hc]
  exact Finset.sum_congr rfl fun a ha => by rw [l2 a (Finset.mem_range.1 ha)]

end

/-- Non-vacuity: two unit squares, the second refined; discontinuous elements, the function with the value `a` at dof `a`, the coefficient `x`. -/
example (close : Pt ℝ → Pt ℝ → Bool) (rc : List ((ℝ × ℝ) × ℝ)) (re : List (ℝ × ℝ)) : ∃ D v fuel af2 A af1 w b af0 af0',
    InSpace twoR (fun _ => true) false witR .DQ0 D v ∧ Sum.Unbound (consOf [] [] : Cons ℝ) ∧ Conforms (consOf [] [] : Cons ℝ).hng v.val ∧ SetOrder sortedSet ∧
    size (LTermK.k ⟨⟨[.map 1 fun x _ => x.x], List.prod⟩, [0]⟩).fs = .ok 1 ∧
    assemble2 (consOf [] []) true fuel (matsK (fun _ => true) false witR D .DQ0 [⟨⟨[.map 1 fun x _ => x.x], List.prod⟩, [0], [0]⟩] rc re 0) = .ok af2 ∧
    af2.consolidate sortedSet = .ok A ∧
    assemble1 (consOf [] []) true fuel (vecsK (fun _ => true) false witR D .DQ0 [⟨⟨[.map 1 fun x _ => x.x], List.prod⟩, [0]⟩] rc re 0) = .ok af1 ∧
    af1.consolidate sortedSet = .ok (w, b) ∧
    assemble0 true (constsK (fun _ => true) false witR ([(⟨⟨[.map 1 fun x _ => x.x], List.prod⟩, [0], [0]⟩ : BTermK)].map fun t => t.at v v) rc re 0) = .ok af0 ∧
    assemble0 true (constsK (fun _ => true) false witR ([(⟨⟨[.map 1 fun x _ => x.x], List.prod⟩, [0]⟩ : LTermK)].map fun t => t.at v) rc re 0) = .ok af0' := by
  obtain ⟨D, L, h⟩ := twoR_space .DQ0 close (fun a => [(a : ℝ)]) 1 [0]
  obtain ⟨N, af2, af1, hN⟩ := C35_terminates (Sum.C86_torn).acyclic true
    (matsK (fun _ => true) false witR D .DQ0 [⟨⟨[.map 1 fun x _ => x.x], List.prod⟩, [0], [0]⟩] rc re 0)
    (vecsK (fun _ => true) false witR D .DQ0 [⟨⟨[.map 1 fun x _ => x.x], List.prod⟩, [0]⟩] rc re 0)
    (fun c hc => by
      obtain ⟨d, _, rfl⟩ := List.mem_map.1 hc
      simp)
    (fun c hc => by
      obtain ⟨d, _, rfl⟩ := List.mem_map.1 hc
      simp)
  obtain ⟨h2, h1⟩ := hN N le_rfl
  have hc0 : ((0, []) : CN) ∈ leaves false witR := by decide +kernel
  obtain ⟨r, hr⟩ : ∃ r, r ∈ (rowOf D (0, [])).getD [] := by
    have := (row_leaf h.wf h.plain h.ready hc0).1
    exact List.exists_mem_of_ne_nil _ (fun h0 => by rw [h0] at this; exact absurd this.symm (Phys.nd2_pos _).ne')
  have hfree : Free (consOf [] [] : Cons ℝ).hng (consOf [] [] : Cons ℝ).dir r := ⟨rfl, rfl⟩
  obtain ⟨A, hA⟩ := C35_consolidates_partial h2 (by
    intro c hc l hl
    obtain ⟨d, _, rfl⟩ := List.mem_map.1 hc
    obtain ⟨t, _, rfl⟩ := List.mem_map.1 hl
    rfl) sortedSet_spec.1 sortedSet_spec.2 ⟨r, r, ⟨_, List.mem_map.2 ⟨_, hc0, rfl⟩, _, List.mem_cons_self, hr⟩, Relation.ReflTransGen.refl, hfree⟩
  have hagg1 : af1.agg ≠ [] := by
    have : r ∈ af1.agg.map (·.row) := ((fold1_ok _ _ _ empty1_new h1).2.2 _).2
      (.inr ⟨_, List.mem_map.2 ⟨_, hc0, rfl⟩, _, List.mem_cons_self, _, hr, hfree, Relation.ReflTransGen.refl⟩)
    intro h0
    rw [h0] at this
    cases this
  obtain ⟨w, b, hb⟩ := consolidate1_total sortedSet_spec.1 sortedSet_spec.2 hagg1
  obtain ⟨af0, h0⟩ := Sum.assemble0_total true
    (constsK (fun _ => true) false witR ([(⟨⟨[.map 1 fun x _ => x.x], List.prod⟩, [0], [0]⟩ : BTermK)].map fun t => t.at ⟨.DQ0, D, [0], none, L, L.map fun a : ℕ => [(a : ℝ)], 1⟩
      ⟨.DQ0, D, [0], none, L, L.map fun a : ℕ => [(a : ℝ)], 1⟩) rc re 0) (fun c hc => by
      obtain ⟨d, _, rfl⟩ := List.mem_map.1 hc
      simp)
  obtain ⟨af0', h0'⟩ := Sum.assemble0_total true
    (constsK (fun _ => true) false witR ([(⟨⟨[.map 1 fun x _ => x.x], List.prod⟩, [0]⟩ : LTermK)].map fun t => t.at ⟨.DQ0, D, [0], none, L, L.map fun a : ℕ => [(a : ℝ)], 1⟩)
      rc re 0) (fun c hc => by
      obtain ⟨d, _, rfl⟩ := List.mem_map.1 hc
      simp)
  have hcf : Conforms (consOf [] [] : Cons ℝ).hng (Nod.val ⟨.DQ0, D, [0], none, L, L.map fun a : ℕ => [(a : ℝ)], 1⟩) := by
    intro a S hS
    have h0 : (consOf [] [] : Cons ℝ).hng a = none := rfl
    rw [h0] at hS
    cases hS
  exact ⟨D, _, N, af2, A, af1, w, b, af0, af0', ⟨h, rfl, rfl, rfl⟩, Sum.C86_torn, hcf, sortedSet_spec.1, rfl, h2, hA, h1, hb, h0, h0'⟩

end Verif.Coef
