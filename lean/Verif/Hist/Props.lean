import Verif.Hist.Lemmas

/-!
# C91: an assembler with several problems and over several calls

`callsOf i ops` lists, for problem `i`, the calls of `assemble` in a history together with the
constraints in force at that time.  The arrays `get_matrix` etc. return are sums over these calls.
-/

set_option linter.unusedSectionVars false

namespace Verif.Hist

open Verif.Asm

variable {R : Type} [CommRing R] {κ : Type} [DecidableEq κ]

/-! ### specification -/

/-- One call of `assemble` as problem `i` sees it: the constraints in force, and what its bilinear,
linear and constant forms give on the cells of the call. -/
structure Call (κ R : Type) where
  cons : Cons R
  bil : List (κ × List (Loc2 R))
  lin : List (κ × List (Loc1 R))
  con : List (κ × List (List R))

/-- The call `assemble` over the cells `cs`, seen by problem `i`. -/
def callOf (C : Cons R) (i : ℕ) (cs : List (CellIn κ R)) : Call κ R where
  cons := C
  bil := cs.map fun c => (c.1, bils (c.2 i))
  lin := cs.map fun c => (c.1, lins (c.2 i))
  con := cs.map fun c => (c.1, consts (c.2 i))

/-- All calls of `assemble` in a history that starts with the Dirichlet values `d` and the hanging
nodes `h`. -/
def callsOf (i : ℕ) : List (ℕ × R) → List (ℕ × (List ℕ × List R)) → List (Op κ R) → List (Call κ R)
  | _, _, [] => []
  | d, h, .dirichlet j vals :: ops =>
    callsOf i (if j = i then vals.foldl (fun d q => dictSet d q.1 q.2) d else d) h ops
  | d, h, .hanging j hng :: ops => callsOf i d (if j = i then hng else h) ops
  | d, h, .assemble _ cs :: ops => callOf ⟨dictGet h, dictGet d⟩ i cs :: callsOf i d h ops

/-- Every form of the problem is evaluated on every cell: with a bilinear (linear) form in the
problem there is a matrix (vector) on every cell (assembler.py 2369-2466). -/
def Evaluates (i : ℕ) (ds : List Dim) (ops : List (Op κ R)) : Prop :=
  ∀ keep cs, Op.assemble keep cs ∈ ops → ∀ c ∈ cs,
    (Dim.d2 ∈ ds → bils (c.2 i) ≠ []) ∧ (Dim.d1 ∈ ds → lins (c.2 i) ≠ [])

/-! ### dictionaries -/

lemma dictGet_set {β : Type} (d : List (ℕ × β)) (k : ℕ) (v : β) (q : ℕ) :
    dictGet (dictSet d k v) q = if q = k then some v else dictGet d q := by
  unfold dictGet dictSet
  split_ifs with h1 h2 h2
  · subst h2
    induction d with
    | nil => simp at h1
    | cons p d ih =>
      by_cases hp : p.1 = q
      · simp [hp]
      · simp only [List.map_cons, List.mem_cons] at h1
        have := ih (h1.resolve_left (fun e => hp e.symm))
        simp only [List.map_cons, hp, if_false]
        rw [List.find?_cons_of_neg (by simpa using hp)]
        exact this
  · clear h1
    induction d with
    | nil => simp
    | cons p d ih =>
      by_cases hp : p.1 = k
      · simp only [List.map_cons, hp, if_true]
        rw [List.find?_cons_of_neg (by simpa using fun e => h2 e.symm),
          List.find?_cons_of_neg (by simpa [hp] using fun e => h2 e.symm)]
        exact ih
      · simp only [List.map_cons, hp, if_false]
        by_cases hq : p.1 = q
        · rw [List.find?_cons_of_pos (by simpa using hq), List.find?_cons_of_pos (by simpa using hq)]
        · rw [List.find?_cons_of_neg (by simpa using hq), List.find?_cons_of_neg (by simpa using hq)]
          exact ih
  · subst h2
    rw [List.find?_append, List.find?_eq_none.2]
    · simp
    · intro p hp
      simp only [decide_eq_true_eq]
      exact fun e => h1 (List.mem_map.2 ⟨p, hp, e⟩)
  · rw [List.find?_append]
    have : ([(k, v)] : List (ℕ × β)).find? (·.1 = q) = none := by simp [Ne.symm h2]
    rw [this, Option.or_none]

/-! ### one step, one problem -/

lemma atProb_ok {f : Prob κ R → Except Err (Prob κ R)} {j : ℕ} {ps ps' : List (Prob κ R)}
    (h : atProb f j ps = .ok ps') : ps'.length = ps.length ∧
      ∀ i (h : i < ps.length) (h' : i < ps'.length),
        (j = i → f ps[i] = .ok ps'[i]) ∧ (j ≠ i → ps'[i] = ps[i]) := by
  unfold atProb at h
  cases hj : ps[j]? with
  | none => simp [hj] at h
  | some p =>
    rw [hj] at h
    simp only at h
    obtain ⟨hlt, hp⟩ := List.getElem?_eq_some_iff.1 hj
    cases hf : f p with
    | error e => simp [hf, Except.map] at h
    | ok q =>
      simp only [hf, Except.map, Except.ok.injEq] at h
      subst h
      refine ⟨by simp, fun i h h' => ⟨?_, ?_⟩⟩
      · rintro rfl
        simp [hp, hf]
      · intro hne
        simp [hne]

lemma addDirichlet_ok {vals : List (ℕ × R)} {p p' : Prob κ R} (h : p.addDirichlet vals = .ok p') :
    p' = { p with dirD := vals.foldl (fun d q => dictSet d q.1 q.2) p.dirD } := by
  unfold Prob.addDirichlet at h
  cases ha : p.a2 with
  | none => simp [ha] at h
  | some a => simp only [ha, Except.ok.injEq] at h; rw [← h, ← ha]

lemma addHanging_ok {hng : List (ℕ × (List ℕ × List R))} {p p' : Prob κ R}
    (h : p.addHanging hng = .ok p') : p' = { p with hngD := hng } := by
  unfold Prob.addHanging at h
  cases ha : p.a2 with
  | none => simp [ha] at h
  | some a => simp only [ha, Except.ok.injEq] at h; rw [← h, ← ha]

/-- A step keeps the number of problems. -/
lemma step_length {ord : List ℕ → List ℕ} {fuel : ℕ} {ps ps' : List (Prob κ R)} {op : Op κ R}
    (h : step ord fuel ps op = .ok ps') : ps'.length = ps.length := by
  cases op with
  | dirichlet j vals => exact (atProb_ok h).1
  | hanging j hng => exact (atProb_ok h).1
  | assemble keep cs => exact ((assemble_iff _ _ _ _ _ _).1 h).1

lemma run_length {ord : List ℕ → List ℕ} {fuel : ℕ} : ∀ {ops : List (Op κ R)} {ps ps' : List (Prob κ R)},
    run ord fuel ps ops = .ok ps' → ps'.length = ps.length := by
  intro ops
  induction ops with
  | nil =>
    intro ps ps' h
    simp only [run, List.foldlM_nil, pure, Except.pure, Except.ok.injEq] at h
    rw [h]
  | cons op ops ih =>
    intro ps ps' h
    simp only [run, List.foldlM_cons, bind_ok_iff] at h
    obtain ⟨ps1, h1, h2⟩ := h
    rw [ih h2, step_length h1]

/-- An induction over histories, for one problem. -/
lemma run_induct {ord : List ℕ → List ℕ} {fuel : ℕ} (i : ℕ) (I : List (Call κ R) → Prob κ R → Prop)
    (ok : List (Op κ R) → Prop) (hok : ∀ op ops, ok (op :: ops) → ok ops)
    (hfr : ∀ calls p d h, I calls p → I calls { p with dirD := d, hngD := h })
    (hass : ∀ calls p p' keep cs ops, ok (.assemble keep cs :: ops) → I calls p →
      probAssemble ord fuel keep p (cs.map fun c => (c.1, c.2 i)) = .ok p' →
      I (calls ++ [callOf p.cons i cs]) p' ∧ SameFrame p p') :
    ∀ (ops : List (Op κ R)) (ps ps' : List (Prob κ R)) (calls : List (Call κ R)) (hi : i < ps.length) (hi' : i < ps'.length),
      ok ops → run ord fuel ps ops = .ok ps' → I calls ps[i] →
      I (calls ++ callsOf i ps[i].dirD ps[i].hngD ops) ps'[i] := by
  intro ops
  induction ops with
  | nil =>
    intro ps ps' calls hi hi' _ h hI
    simp only [run, List.foldlM_nil, pure, Except.pure, Except.ok.injEq] at h
    subst h
    simpa [callsOf] using hI
  | cons op ops ih =>
    intro ps ps' calls hi hi' hops h hI
    simp only [run, List.foldlM_cons, bind_ok_iff] at h
    obtain ⟨ps1, h1, h2⟩ := h
    have hl1 := step_length h1
    have hi1 : i < ps1.length := by omega
    cases op with
    | dirichlet j vals =>
      obtain ⟨_, e⟩ := atProb_ok h1
      obtain ⟨e1, e2⟩ := e i hi hi1
      by_cases hj : j = i
      · have e1 := addDirichlet_ok (e1 hj)
        have := ih ps1 ps' calls hi1 hi' (hok _ _ hops) h2 (by rw [e1]; exact hfr _ _ _ ps[i].hngD hI)
        simp only [e1] at this
        simpa [callsOf, hj] using this
      · have := ih ps1 ps' calls hi1 hi' (hok _ _ hops) h2 (by rw [e2 hj]; exact hI)
        simp only [e2 hj] at this
        simpa [callsOf, hj] using this
    | hanging j hng =>
      obtain ⟨_, e⟩ := atProb_ok h1
      obtain ⟨e1, e2⟩ := e i hi hi1
      by_cases hj : j = i
      · have e1 := addHanging_ok (e1 hj)
        have := ih ps1 ps' calls hi1 hi' (hok _ _ hops) h2 (by rw [e1]; exact hfr _ _ ps[i].dirD _ hI)
        simp only [e1] at this
        simpa [callsOf, hj] using this
      · have := ih ps1 ps' calls hi1 hi' (hok _ _ hops) h2 (by rw [e2 hj]; exact hI)
        simp only [e2 hj] at this
        simpa [callsOf, hj] using this
    | assemble keep cs =>
      obtain ⟨_, e⟩ := (assemble_iff _ _ _ _ _ _).1 h1
      obtain ⟨g1, g2⟩ := hass calls _ _ _ _ _ hops hI (e i hi hi1)
      have := ih ps1 ps' _ hi1 hi' (hok _ _ hops) h2 g1
      rw [g2.dirD, g2.hngD] at this
      simpa [callsOf, List.append_assoc, Prob.cons] using this

/-! ### the invariants -/

/-- The bilinear form of a problem is the concatenation of what every call alone would give. -/
def Inv2 (ord : List ℕ → List ℕ) (fuel : ℕ) (calls : List (Call κ R)) (p : Prob κ R) : Prop :=
  ∃ af afs, p.a2 = some af ∧ Empty2 af ∧
    List.Forall₂ (fun (k : Call κ R) (a : AF2 κ R) => assemble2 k.cons false fuel k.bil = .ok a) calls afs ∧
    af.agg = (afs.map (·.agg)).flatten ∧ af.bnd = (afs.map (·.bnd)).flatten ∧
    (calls = [] → p.c2 = none) ∧ (calls ≠ [] → ∃ s, af.consolidate ord = .ok s ∧ p.c2 = some s)

/-- The same for the linear form. -/
def Inv1 (ord : List ℕ → List ℕ) (fuel : ℕ) (calls : List (Call κ R)) (p : Prob κ R) : Prop :=
  ∃ af afs, p.a1 = some af ∧ Empty1 af ∧
    List.Forall₂ (fun (k : Call κ R) (a : AF1 κ R) => assemble1 k.cons false fuel k.lin = .ok a) calls afs ∧
    af.agg = (afs.map (·.agg)).flatten ∧
    (calls = [] → p.c1 = none) ∧ (calls ≠ [] → ∃ s, af.consolidate ord = .ok s ∧ p.c1 = some s)

/-- The constant form. -/
def Inv0 (calls : List (Call κ R)) (p : Prob κ R) : Prop :=
  ∃ af, p.a0 = some af ∧ Empty0 af ∧
    af.agg.sum = (calls.map fun k => (k.con.map fun c => (c.2.map List.sum).sum).sum).sum ∧
    (calls = [] → p.c0 = none) ∧ (calls ≠ [] → p.c0 = some af.agg.sum)

lemma assemble_frame {ord : List ℕ → List ℕ} {fuel : ℕ} {keep : Bool} {p p' : Prob κ R} {cs : List (κ × List (Loc R))}
    (h : probAssemble ord fuel keep p cs = .ok p') : SameFrame p p' := by
  obtain ⟨q, h1, h2⟩ := (bind_ok_iff _ _ _).1 h
  obtain ⟨f1, -⟩ := probCells_ok h1
  obtain ⟨f2, -⟩ := consolidate_ok h2
  exact ⟨f2.dirD.trans f1.dirD, f2.hngD.trans f1.hngD⟩

lemma inv2_assemble {ord : List ℕ → List ℕ} {fuel : ℕ} {i : ℕ} {calls : List (Call κ R)} {p p' : Prob κ R} {keep : Bool}
    {cs : List (CellIn κ R)} (hne : ∀ c ∈ cs, bils (c.2 i) ≠ []) (hI : Inv2 ord fuel calls p)
    (h : probAssemble ord fuel keep p (cs.map fun c => (c.1, c.2 i)) = .ok p') :
    Inv2 ord fuel (calls ++ [callOf p.cons i cs]) p' := by
  obtain ⟨q, h1, h2⟩ := (bind_ok_iff _ _ _).1 h
  obtain ⟨f1, -, -, r2⟩ := probCells_ok h1
  obtain ⟨f2, -, -, e2, -, -, k2⟩ := consolidate_ok h2
  obtain ⟨af, afs, ha, hE, hall, hag, hbn, -, -⟩ := hI
  rcases r2 with ⟨e, -⟩ | ⟨a, a', e, e', e1⟩
  · rw [ha] at e; cases e
  · rw [ha] at e; cases e
    rw [List.map_map] at e1
    obtain ⟨b, g1, g2, g3, g4, g5⟩ := fold2_frame false (b := AF2.new) (g := af.agg) (gb := af.bnd) hE empty2_new
      (by simp [AF2.new]) (by simp [AF2.new]) (by
        intro c hc
        obtain ⟨c', hc', rfl⟩ := List.mem_map.1 hc
        exact hne c' hc') e1
    obtain ⟨s, hs, hs'⟩ := k2 a' e'
    refine ⟨a', afs ++ [b], by rw [e2, e'], g3, ?_, ?_, ?_, by simp, fun _ => ⟨s, hs, hs'⟩⟩
    · exact List.rel_append hall (List.Forall₂.cons g1 .nil)
    · rw [g4, hag]; simp
    · rw [g5, hbn]; simp

lemma inv1_assemble {ord : List ℕ → List ℕ} {fuel : ℕ} {i : ℕ} {calls : List (Call κ R)} {p p' : Prob κ R} {keep : Bool}
    {cs : List (CellIn κ R)} (hne : ∀ c ∈ cs, lins (c.2 i) ≠ []) (hI : Inv1 ord fuel calls p)
    (h : probAssemble ord fuel keep p (cs.map fun c => (c.1, c.2 i)) = .ok p') :
    Inv1 ord fuel (calls ++ [callOf p.cons i cs]) p' := by
  obtain ⟨q, h1, h2⟩ := (bind_ok_iff _ _ _).1 h
  obtain ⟨f1, -, r2, -⟩ := probCells_ok h1
  obtain ⟨f2, -, e2, -, -, k2, -⟩ := consolidate_ok h2
  obtain ⟨af, afs, ha, hE, hall, hag, -, -⟩ := hI
  rcases r2 with ⟨e, -⟩ | ⟨a, a', e, e', e1⟩
  · rw [ha] at e; cases e
  · rw [ha] at e; cases e
    rw [List.map_map] at e1
    obtain ⟨b, g1, g2, g3, g4⟩ := fold1_frame false (b := AF1.new) (g := af.agg) hE empty1_new
      (by simp [AF1.new]) (by
        intro c hc
        obtain ⟨c', hc', rfl⟩ := List.mem_map.1 hc
        exact hne c' hc') e1
    obtain ⟨s, hs, hs'⟩ := k2 a' e'
    refine ⟨a', afs ++ [b], by rw [e2, e'], g3, ?_, ?_, by simp, fun _ => ⟨s, hs, hs'⟩⟩
    · exact List.rel_append hall (List.Forall₂.cons g1 .nil)
    · rw [g4, hag]; simp

lemma inv0_assemble {ord : List ℕ → List ℕ} {fuel : ℕ} {i : ℕ} {calls : List (Call κ R)} {p p' : Prob κ R}
    {cs : List (CellIn κ R)} (hI : Inv0 calls p)
    (h : probAssemble ord fuel false p (cs.map fun c => (c.1, c.2 i)) = .ok p') :
    Inv0 (calls ++ [callOf p.cons i cs]) p' := by
  obtain ⟨q, h1, h2⟩ := (bind_ok_iff _ _ _).1 h
  obtain ⟨f1, r2, -, -⟩ := probCells_ok h1
  obtain ⟨f2, e2, -, -, k2, -, -⟩ := consolidate_ok h2
  obtain ⟨af, ha, hE, hag, -, -⟩ := hI
  rcases r2 with ⟨e, -⟩ | ⟨a, a', e, e', e1⟩
  · rw [ha] at e; cases e
  · rw [ha] at e; cases e
    rw [List.map_map] at e1
    obtain ⟨g1, g2⟩ := cells0_ok hE e1
    refine ⟨a', by rw [e2, e'], g1, ?_, by simp, fun _ => by rw [k2 a' e', AF0.consolidate]⟩
    rw [g2, hag]
    simp [callOf]
    rfl

lemma inv2_run {ord : List ℕ → List ℕ} {fuel : ℕ} {dss : List (List Dim)} {ops : List (Op κ R)} {ps : List (Prob κ R)}
    {i : ℕ} (hi : i < dss.length) (hd : Dim.d2 ∈ dss[i]) (hev : Evaluates i dss[i] ops)
    (h : run ord fuel (dss.map Prob.new) ops = .ok ps) (hi' : i < ps.length) :
    Inv2 ord fuel (callsOf i [] [] ops) ps[i] := by
  have := run_induct (ord := ord) (fuel := fuel) i (Inv2 ord fuel) (Evaluates i dss[i])
    (fun op ops h keep cs hm => h keep cs (List.mem_cons_of_mem _ hm))
    (fun calls p d h hI => hI)
    (fun calls p p' keep cs ops hok hI hA =>
      ⟨inv2_assemble (fun c hc => (hok keep cs (by simp) c hc).1 hd) hI hA, assemble_frame hA⟩)
    ops (dss.map Prob.new) ps [] (by simpa using hi) hi' hev h (by
      refine ⟨AF2.new, [], by simp [Prob.new, hd], empty2_new, .nil, by simp [AF2.new], by simp [AF2.new], ?_, by simp⟩
      simp [Prob.new])
  simpa [Prob.new] using this

lemma inv1_run {ord : List ℕ → List ℕ} {fuel : ℕ} {dss : List (List Dim)} {ops : List (Op κ R)} {ps : List (Prob κ R)}
    {i : ℕ} (hi : i < dss.length) (hd : Dim.d1 ∈ dss[i]) (hev : Evaluates i dss[i] ops)
    (h : run ord fuel (dss.map Prob.new) ops = .ok ps) (hi' : i < ps.length) :
    Inv1 ord fuel (callsOf i [] [] ops) ps[i] := by
  have := run_induct (ord := ord) (fuel := fuel) i (Inv1 ord fuel) (Evaluates i dss[i])
    (fun op ops h keep cs hm => h keep cs (List.mem_cons_of_mem _ hm))
    (fun calls p d h hI => hI)
    (fun calls p p' keep cs ops hok hI hA =>
      ⟨inv1_assemble (fun c hc => (hok keep cs (by simp) c hc).2 hd) hI hA, assemble_frame hA⟩)
    ops (dss.map Prob.new) ps [] (by simpa using hi) hi' hev h (by
      refine ⟨AF1.new, [], by simp [Prob.new, hd], empty1_new, .nil, by simp [AF1.new], ?_, by simp⟩
      simp [Prob.new])
  simpa [Prob.new] using this

lemma inv0_run {ord : List ℕ → List ℕ} {fuel : ℕ} {dss : List (List Dim)} {ops : List (Op κ R)} {ps : List (Prob κ R)}
    {i : ℕ} (hi : i < dss.length) (hd : Dim.d0 ∈ dss[i]) (hk : ∀ cs, Op.assemble true cs ∉ ops)
    (h : run ord fuel (dss.map Prob.new) ops = .ok ps) (hi' : i < ps.length) :
    Inv0 (callsOf i [] [] ops) ps[i] := by
  have := run_induct (ord := ord) (fuel := fuel) i Inv0 (fun ops => ∀ cs, Op.assemble true cs ∉ ops)
    (fun op ops h cs hm => h cs (List.mem_cons_of_mem _ hm))
    (fun calls p d h hI => hI)
    (fun calls p p' keep cs ops hok hI hA => by
      cases keep with
      | true => exact absurd (List.mem_cons_self ..) (hok cs)
      | false => exact ⟨inv0_assemble hI hA, assemble_frame hA⟩)
    ops (dss.map Prob.new) ps [] (by simpa using hi) hi' hk h (by
      refine ⟨AF0.new, by simp [Prob.new, hd], fun _ => rfl, by simp [AF0.new], ?_, by simp⟩
      simp [Prob.new])
  simpa [Prob.new] using this

end Verif.Hist
