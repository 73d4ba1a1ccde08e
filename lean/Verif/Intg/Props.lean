import Verif.Intg.Core
import Verif.Asm.Props

/-!
# C76: integral operators
-/

namespace Verif.Intg
open Verif.Asm (Loc2 localBilin total2 Cons assemble2 AF2 Sys2 SetOrder Ascending IsProlongation Acyclic Free Test Trial Reach)
variable {κ X R F : Type} [CommRing R] [DecidableEq κ]

theorem mapM_ok {α β ε : Type} {f : α → Except ε β} {g : α → β} {l : List α} (h : ∀ a ∈ l, f a = .ok (g a)) : l.mapM f = .ok (l.map g) := by
  induction l with
  | nil => rfl
  | cons a l ih => rw [List.mapM_cons, h a (by simp), ih (fun b hb => h b (by simp [hb]))]; rfl

theorem sumLocs_flatten (ll : List (List (Loc2 R))) (v u : ℕ → R) : sumLocs ll.flatten v u = (ll.map fun ls => sumLocs ls v u).sum := by
  induction ll with
  | nil => rfl
  | cons a l ih => simp only [List.flatten_cons, sumLocs, List.map_append, List.sum_append, List.map_cons, List.sum_cons] at *; rw [ih]

theorem single_flatMap {α : Type} (k : X → X → R) (x : X) (l : List α) (f : α → List (X × R)) :
    single k x (l.flatMap f) = (l.map fun a => single k x (f a)).sum := by
  induction l with
  | nil => rfl
  | cons a l ih => simp only [single, List.flatMap_cons, List.map_append, List.sum_append, List.map_cons, List.sum_cons] at *; rw [ih]

theorem sum_getElem {α : Type} (l : List α) (f : α → R) : ∑ j : Fin l.length, f l[j] = (l.map f).sum := by
  rw [← List.sum_ofFn]
  congr 1
  exact List.ext_getElem (by simp) (fun i h1 h2 => by simp)

/-- One region: the collocated form. -/
theorem localBilin_II (k : X → X → R) (vert : ℕ → X) (all es : List ℕ) (r : Reg X R) (v u : ℕ → R) :
    localBilin all es (blockII k (fun i => (all.map vert).getD i (vert 0)) r) v u = (all.map fun d => v d * single k (vert d) (nodes r.trl r es u)).sum := by
  rw [← sum_getElem all (fun d => v d * single k (vert d) (nodes r.trl r es u))]
  unfold localBilin
  refine Finset.sum_congr rfl fun j _ => ?_
  have hj : (all.map vert).getD j (vert 0) = vert all[j] := by
    simp [List.getD_eq_getElem?_getD]
  simp only [single, nodes, List.map_map, Function.comp_def, sum_range_list, blockII, hj, feVal, Finset.mul_sum, Finset.sum_mul]
  rw [Finset.sum_comm]
  exact Finset.sum_congr rfl fun g _ => Finset.sum_congr rfl fun i _ => by ring

/-- One form. -/
theorem form_ok {cells : List κ} (hnd : cells.Nodup) {f : BForm κ X R F} (hf : f.Ok cells) :
    ∃ L : κ → List (Loc2 R), (∀ c ∈ cells, localOf cells c f = .ok (L c) ∧ L c ≠ []) ∧ (∀ v u, (cells.map fun c => sumLocs (L c) v u).sum = value cells v u f) ∧
      (f.Same cells → (∀ r, (∃ c ∈ cells, ∃ l ∈ L c, r ∈ l.tst ∨ r ∈ l.trl) → ∃ c ∈ cells, ∃ l ∈ L c, r ∈ l.tst ∧ r ∈ l.trl) ∧
        ∀ r, (∃ c ∈ cells, ∃ l ∈ L c, r ∈ l.tst) ↔ r ∈ f.dofs cells) := by
  cases f with
  | plain loc =>
    refine ⟨fun c => [loc c], fun c _ => ⟨rfl, by simp⟩, fun v u => by simp [sumLocs, value],
      fun hs => ⟨fun r => ?_, fun r => ?_⟩⟩
    · rintro ⟨c, hc, l, hl, h⟩
      refine ⟨c, hc, l, hl, ?_⟩
      rw [List.mem_singleton] at hl
      subst hl
      rw [hs c hc] at h ⊢
      exact ⟨h.elim id id, h.elim id id⟩
    · simp [BForm.dofs]
  | ii k samples regs flag vert all trl =>
    obtain ⟨rfl, h1, rfl⟩ := hf
    have h1' : ∀ c ∈ cells, ∃ r, regs c = [r] := fun c hc => List.length_eq_one_iff.1 (h1 c hc)
    refine ⟨fun c => match regs c with
      | [] => []
      | r :: _ => [⟨all, trl c, blockII k (fun i => (all.map vert).getD i (vert 0)) r⟩], fun c hc => ?_, fun v u => ?_, fun hs => ⟨fun r => ?_, fun r => ?_⟩⟩
    · obtain ⟨r, hr⟩ := h1' c hc
      simp only [hr]
      refine ⟨?_, by simp⟩
      simp only [localOf, vertsII, evalII, notNone, hr, bind, Except.bind, if_true]
    · have hv : value cells v u (BForm.ii (F := F) k 1 regs none vert all trl) = (all.map fun d => v d * single k (vert d) (trlNodes regs trl cells u)).sum := rfl
      have e : ∀ d ∈ all, v d * single k (vert d) (trlNodes regs trl cells u) = (cells.map fun c => v d * single k (vert d) (trlNodes regs trl [c] u)).sum := by
        intro d _
        rw [trlNodes, single_flatMap, ← List.sum_map_mul_left]
        simp [trlNodes]
      rw [hv, List.map_congr_left e, sum_comm_list]
      refine congrArg List.sum (List.map_congr_left fun c hc => ?_)
      obtain ⟨r, hr⟩ := h1' c hc
      simp only [hr, sumLocs, List.map_cons, List.map_nil, List.sum_cons, List.sum_nil, add_zero]
      rw [localBilin_II]
      simp [trlNodes, hr, nodes]
    · rintro ⟨c, hc, l, hl, h⟩
      have hr : ∃ c ∈ cells, r ∈ trl c := by
        obtain ⟨q, hq⟩ := h1' c hc
        simp only [hq, List.mem_singleton] at hl
        subst hl
        exact h.elim (hs r).1 fun h => ⟨c, hc, h⟩
      obtain ⟨d, hd, hrd⟩ := hr
      obtain ⟨q, hq⟩ := h1' d hd
      exact ⟨d, hd, ⟨all, trl d, blockII k (fun i => (all.map vert).getD i (vert 0)) q⟩, by simp [hq], (hs r).2 ⟨d, hd, hrd⟩, hrd⟩
    · constructor
      · rintro ⟨c, hc, l, hl, h⟩
        obtain ⟨q, hq⟩ := h1' c hc
        simp only [hq, List.mem_singleton] at hl
        subst hl
        exact h
      · intro h
        obtain ⟨d, hd, _⟩ := (hs r).1 h
        obtain ⟨q, hq⟩ := h1' d hd
        exact ⟨d, hd, ⟨all, trl d, blockII k (fun i => (all.map vert).getD i (vert 0)) q⟩, by simp [hq], h⟩
  | ip k samples sym regs tst trl =>
    obtain ⟨rfl, h1, ⟨n, hn⟩, hs⟩ := hf
    have hn' : ∀ c ∈ cells, ∀ d ∈ cells, ∀ r ∈ regs c, ∀ s ∈ regs d, r.n = s.n := fun c hc d hd r hr s hs => (hn c hc r hr).trans (hn d hd s hs).symm
    have hv : ∀ v u, value cells v u (BForm.ip (F := F) k 1 sym regs tst trl) = double k (tstNodes regs tst cells v) (trlNodes regs trl cells u) := fun _ _ => rfl
    cases sym with
    | false =>
      have := fun (c : κ) (hc : c ∈ cells) => rowIP_full k regs tst trl c cells (h1 c hc) (fun d hd => ⟨h1 d hd, hn' c hc d hd⟩)
      choose! L h using this
      refine ⟨L, fun c hc => ⟨(h c hc).1, (h c hc).2.1 (List.ne_nil_of_mem hc)⟩, fun v u => ?_, fun hs => ⟨fun r => ?_, fun r => ?_⟩⟩
      · rw [hv, double_cells]
        exact congrArg List.sum (List.map_congr_left fun c hc => (h c hc).2.2.2.2 v u)
      · rintro ⟨c, hc, l, hl, hr⟩
        obtain ⟨d, hd, h2, h3⟩ := (h c hc).2.2.1 l hl
        have hex : ∃ e ∈ cells, r ∈ tst e := by
          rw [h2, h3, show tst = trl from hs] at hr
          rw [show tst = trl from hs]
          exact hr.elim (fun h => ⟨c, hc, h⟩) fun h => ⟨d, hd, h⟩
        obtain ⟨e, he, hre⟩ := hex
        obtain ⟨l', hl', h4, h5⟩ := (h e he).2.2.2.1 e he
        exact ⟨e, he, l', hl', by rw [h4]; exact hre, by rw [h5, ← show tst = trl from hs]; exact hre⟩
      · simp only [BForm.dofs, List.mem_flatMap]
        constructor
        · rintro ⟨c, hc, l, hl, hr⟩
          obtain ⟨d, hd, h2, h3⟩ := (h c hc).2.2.1 l hl
          exact ⟨c, hc, by rw [← h2]; exact hr⟩
        · rintro ⟨c, hc, hr⟩
          obtain ⟨l', hl', h4, h5⟩ := (h c hc).2.2.2.1 c hc
          exact ⟨c, hc, l', hl', by rw [h4]; exact hr⟩
    | true =>
      obtain ⟨hk, rfl, ht⟩ := hs rfl
      have : ∀ c ∈ cells, ∃ ls, rowIP k 1 true regs tst tst c cells = .ok ls ∧ ls ≠ [] ∧
          (∀ l ∈ ls, ∃ d ∈ cells, (l.tst = tst c ∧ l.trl = tst d) ∨ (l.tst = tst d ∧ l.trl = tst c)) ∧
          (∃ l ∈ ls, l.tst = tst c ∧ l.trl = tst c) ∧
          ∀ v u, sumLocs ls v u = ((cells.takeWhile (· ≠ c)).map fun d => double k (tstNodes regs tst [c] v) (trlNodes regs tst [d] u)
            + double k (tstNodes regs tst [d] v) (trlNodes regs tst [c] u)).sum + double k (tstNodes regs tst [c] v) (trlNodes regs tst [c] u) := by
        intro c hc
        have hsub : ∀ d ∈ cells.takeWhile (· ≠ c), d ∈ cells := fun d hd => (List.takeWhile_prefix _).subset hd
        have hnot : c ∉ cells.takeWhile (· ≠ c) := fun hm => by simpa using List.mem_takeWhile_imp hm
        obtain ⟨post, hpost⟩ : ∃ post, cells = cells.takeWhile (· ≠ c) ++ c :: post := by
          have h0 := List.takeWhile_append_dropWhile (p := (· ≠ c)) (l := cells)
          cases hd : cells.dropWhile (· ≠ c) with
          | nil =>
            rw [hd, List.append_nil] at h0
            rw [← h0] at hc
            exact absurd hc hnot
          | cons d post =>
            have := List.head?_dropWhile_not (· ≠ c) cells
            rw [hd] at this
            have : d = c := by simpa using this
            exact ⟨post, by conv_lhs => rw [← h0, hd, this]⟩
        obtain ⟨ls, e, h2, h4, h5, h3⟩ := rowIP_sym k regs tst c _ post (h1 c hc) hk hnot (fun d hd => ⟨h1 d (hsub d hd), hn' c hc d (hsub d hd)⟩) (hn' c hc c hc)
          (fun d hd => by rcases List.mem_cons.1 hd with rfl | hd; exacts [ht _ hc, ht _ (hsub d hd)])
        refine ⟨ls, by rw [← hpost] at e; exact e, h2, fun l hl => ?_, (h5 c (by simp)).1, h3⟩
        obtain ⟨d, hd, q⟩ := h4 l hl
        exact ⟨d, by rcases List.mem_cons.1 hd with rfl | hd; exacts [hc, hsub d hd], q⟩
      choose! L h using this
      refine ⟨L, fun c hc => ⟨(h c hc).1, (h c hc).2.1⟩, fun v u => ?_, fun _ => ⟨fun r => ?_, fun r => ?_⟩⟩
      · rw [hv, double_cells, ← triangle _ cells hnd]
        exact congrArg List.sum (List.map_congr_left fun c hc => (h c hc).2.2.2.2 v u)
      · rintro ⟨c, hc, l, hl, hr⟩
        have hex : ∃ e ∈ cells, r ∈ tst e := by
          obtain ⟨d, hd, ⟨h2, h3⟩ | ⟨h2, h3⟩⟩ := (h c hc).2.2.1 l hl <;> rw [h2, h3] at hr
          · exact hr.elim (fun h => ⟨c, hc, h⟩) fun h => ⟨d, hd, h⟩
          · exact hr.elim (fun h => ⟨d, hd, h⟩) fun h => ⟨c, hc, h⟩
        obtain ⟨e, he, hre⟩ := hex
        obtain ⟨l', hl', h4, h5⟩ := (h e he).2.2.2.1
        exact ⟨e, he, l', hl', by rw [h4]; exact hre, by rw [h5]; exact hre⟩
      · simp only [BForm.dofs, List.mem_flatMap]
        constructor
        · rintro ⟨c, hc, l, hl, hr⟩
          obtain ⟨d, hd, ⟨h2, h3⟩ | ⟨h2, h3⟩⟩ := (h c hc).2.2.1 l hl <;> rw [h2] at hr
          · exact ⟨c, hc, hr⟩
          · exact ⟨d, hd, hr⟩
        · rintro ⟨c, hc, hr⟩
          obtain ⟨l', hl', h4, h5⟩ := (h c hc).2.2.2.1
          exact ⟨c, hc, l', hl', by rw [h4]; exact hr⟩

/-- **C76** (contributions).  For every problem of ordinary and integral forms the cell loop returns, and the sum of all contributions, at any test and
trial functions, is the sum of the values of the forms: for `IPForm` the quadrature of the double integral over all pairs of cells, also if only half of
them are visited because the kernel is symmetric; for `IIForm` the quadrature of the integral at every vertex of a dof. -/
theorem contribs_ok {cells : List κ} (hnd : cells.Nodup) {forms : List (BForm κ X R F)} (hf : ∀ f ∈ forms, f.Ok cells) :
    ∃ cs, contribs cells forms = .ok cs ∧ cs.map (·.1) = cells ∧ (forms ≠ [] → ∀ c ∈ cs, c.2 ≠ []) ∧
      (∀ v u, total2 cs v u = (forms.map (value cells v u)).sum) ∧
      ((∀ f ∈ forms, f.Same cells) → (∀ r, (∃ c ∈ cs, ∃ l ∈ c.2, r ∈ l.tst ∨ r ∈ l.trl) → ∃ c ∈ cs, ∃ l ∈ c.2, r ∈ l.tst ∧ r ∈ l.trl) ∧
        ∀ r, (∃ c ∈ cs, ∃ l ∈ c.2, r ∈ l.tst) ↔ ∃ f ∈ forms, r ∈ f.dofs cells) := by
  have := fun (f : BForm κ X R F) (h : f ∈ forms) => form_ok hnd (hf f h)
  choose! L h using this
  refine ⟨cells.map fun c => (c, (forms.map fun f => L f c).flatten), ?_, ?_, ?_, ?_, fun hs => ?_⟩
  · refine mapM_ok fun c hc => ?_
    rw [cellOf, mapM_ok (g := fun f => L f c) (fun f hf => ((h f hf).1 c hc).1)]
    rfl
  · simp [List.map_map, Function.comp_def]
  · intro hne c hc
    obtain ⟨d, hd, rfl⟩ := List.mem_map.1 hc
    obtain ⟨f, hf⟩ := List.exists_mem_of_ne_nil _ hne
    obtain ⟨l, hl⟩ := List.exists_mem_of_ne_nil _ ((h f hf).1 d hd).2
    exact List.ne_nil_of_mem (List.mem_flatten.2 ⟨L f d, List.mem_map.2 ⟨f, hf, rfl⟩, hl⟩)
  · intro v u
    have e : total2 (cells.map fun c => (c, (forms.map fun f => L f c).flatten)) v u = (cells.map fun c => sumLocs (forms.map fun f => L f c).flatten v u).sum := by
      simp [total2, sumLocs, List.map_map, Function.comp_def]
    simp only [e, sumLocs_flatten, List.map_map, Function.comp_def]
    rw [sum_comm_list]
    exact congrArg List.sum (List.map_congr_left fun f hf => (h f hf).2.1 v u)
  · have key : ∀ p : Loc2 R → Prop, (∃ c ∈ cells.map (fun c => (c, (forms.map fun f => L f c).flatten)), ∃ l ∈ c.2, p l) ↔
        ∃ f ∈ forms, ∃ c ∈ cells, ∃ l ∈ L f c, p l := by
      intro p
      constructor
      · rintro ⟨c, hc, l, hl, hp⟩
        obtain ⟨d, hd, rfl⟩ := List.mem_map.1 hc
        obtain ⟨ls, hls, hl⟩ := List.mem_flatten.1 hl
        obtain ⟨f, hf, rfl⟩ := List.mem_map.1 hls
        exact ⟨f, hf, d, hd, l, hl, hp⟩
      · rintro ⟨f, hf, d, hd, l, hl, hp⟩
        exact ⟨_, List.mem_map.2 ⟨d, hd, rfl⟩, l, List.mem_flatten.2 ⟨L f d, List.mem_map.2 ⟨f, hf, rfl⟩, hl⟩, hp⟩
    refine ⟨fun r hr => ?_, fun r => ?_⟩
    · obtain ⟨f, hf, h1⟩ := (key _).1 hr
      exact (key _).2 ⟨f, hf, ((h f hf).2.2 (hs f hf)).1 r h1⟩
    · rw [key]
      constructor
      · rintro ⟨f, hf, h1⟩
        exact ⟨f, hf, (((h f hf).2.2 (hs f hf)).2 r).1 h1⟩
      · rintro ⟨f, hf, h1⟩
        exact ⟨f, hf, (((h f hf).2.2 (hs f hf)).2 r).2 h1⟩

/-- **C76** (matrix).  For every problem of bilinear forms, ordinary and integral ones, with hanging nodes and Dirichlet conditions: the loops return, and if
the matrix is consolidated, its rows and columns are the free dofs that are used, and every entry is the sum of the values of the forms for the constrained
basis functions. -/
theorem C76_matrix_partial {C : Cons R} (hac : Acyclic C.hng) (keep : Bool) {cells : List κ} (hnd : cells.Nodup) {forms : List (BForm κ X R F)}
    (hne : forms ≠ []) (hf : ∀ f ∈ forms, f.Ok cells) :
    ∃ cs af N, contribs cells forms = .ok cs ∧ (∀ fuel ≥ N, assemble2 C keep fuel cs = .ok af) ∧
      ∀ ord, SetOrder ord → ∀ s, af.consolidate ord = .ok s → ∀ P, IsProlongation C.hng C.dir P → ∀ i j (hi : i < s.urow.length) (hj : j < s.ucol.length),
        s.entry i j = (forms.map (value cells (P s.urow[i]) (P s.ucol[j]))).sum := by
  obtain ⟨cs, h1, _, h3, h4, _⟩ := contribs_ok hnd hf
  obtain ⟨N, af, _, h5⟩ := Asm.C35_terminates hac keep cs ([] : List (κ × List (Asm.Loc1 R))) (h3 hne) (by simp)
  refine ⟨cs, af, N, h1, fun fuel hfu => (h5 fuel hfu).1, fun ord ho s hs P hP i j hi hj => ?_⟩
  rw [← h4]
  exact Asm.C35_matrix (h5 N le_rfl).1 ho hs hP hi hj

/-- **C76** (consolidation, Dirichlet values).  If test and trial functions have the same dofs and some dof is free, the matrix is consolidated; its rows and
its columns are exactly the free dofs reached from dofs of the forms, each once; and with the correction for the Dirichlet values it represents the forms:
for all test functions `v` and all functions `x` with the Dirichlet values. -/
theorem C76_galerkin_partial {C : Cons R} (hac : Acyclic C.hng) (keep : Bool) {cells : List κ} (hnd : cells.Nodup) {forms : List (BForm κ X R F)}
    (hf : ∀ f ∈ forms, f.Ok cells ∧ f.Same cells) (hfree : ∃ f ∈ forms, ∃ r ∈ f.dofs cells, ∃ d, Reach C.hng r d ∧ Free C.hng C.dir d)
    {ord : List ℕ → List ℕ} (ho : SetOrder ord) (ha : Ascending ord) :
    ∃ cs af N s, contribs cells forms = .ok cs ∧ (∀ fuel ≥ N, assemble2 C keep fuel cs = .ok af) ∧ af.consolidate ord = .ok s ∧
      s.urow.Nodup ∧ s.ucol.Nodup ∧
      (∀ d, d ∈ s.urow ↔ Free C.hng C.dir d ∧ ∃ f ∈ forms, ∃ r ∈ f.dofs cells, Reach C.hng r d) ∧
      (∀ d, d ∈ s.ucol ↔ Free C.hng C.dir d ∧ ∃ f ∈ forms, ∃ r ∈ f.dofs cells, Reach C.hng r d) ∧
      ∀ v x, Test C.hng C.dir v → Trial C.hng C.dir x →
        (∑ i : Fin s.urow.length, ∑ j : Fin s.ucol.length, v s.urow[i] * s.entry i j * x s.ucol[j]) + ∑ i : Fin s.urow.length, v s.urow[i] * Asm.corr s i
          = (forms.map (value cells v x)).sum := by
  obtain ⟨cs, h1, _, h3, h4, h4'⟩ := contribs_ok hnd (fun f h => (hf f h).1)
  obtain ⟨hdiag, huse⟩ := h4' (fun f h => (hf f h).2)
  obtain ⟨f₀, hf₀, r₀, hr₀, d₀, hd₀, hfr⟩ := hfree
  obtain ⟨N, af, _, h5⟩ := Asm.C35_terminates hac keep cs ([] : List (κ × List (Asm.Loc1 R))) (h3 (List.ne_nil_of_mem hf₀)) (by simp)
  have hA := (h5 N le_rfl).1
  have hrows : ∀ r d, (∃ c ∈ cs, ∃ l ∈ c.2, r ∈ l.tst ∨ r ∈ l.trl) → Reach C.hng r d → Free C.hng C.dir d → ∃ a ∈ af.agg, a.row = d ∧ a.col = d := by
    intro r d hr hrd hd
    obtain ⟨c, hc, l, hl, h6, h7⟩ := hdiag r hr
    exact (Asm.assemble2_pairs hA d d).2 ⟨c, hc, l, hl, r, h6, r, h7, hd, hd, hrd, hrd⟩
  have hbnd : ∀ p ∈ af.bnd, p.1 ∈ af.agg.map (·.row) := by
    intro p hp
    obtain ⟨c, hc, l, hl, r, hr, q, _, hfp, hrf, _⟩ := (Asm.assemble2_bnd hA p.1).1 (List.mem_map.2 ⟨p, hp, rfl⟩)
    obtain ⟨a, ha, h6, _⟩ := hrows r p.1 ⟨c, hc, l, hl, Or.inl hr⟩ hrf hfp
    exact List.mem_map.2 ⟨a, ha, h6⟩
  have hagg : af.agg ≠ [] := by
    obtain ⟨c, hc, l, hl, hr⟩ := (huse r₀).2 ⟨f₀, hf₀, hr₀⟩
    obtain ⟨a, ha, _⟩ := hrows r₀ d₀ ⟨c, hc, l, hl, Or.inl hr⟩ hd₀ hfr
    exact List.ne_nil_of_mem ha
  obtain ⟨s, hs⟩ := Asm.consolidate2_total ho ha hagg hbnd
  obtain ⟨n1, n2, m1, m2⟩ := Asm.C35_dofs hA ho hs
  refine ⟨cs, af, N, s, h1, fun fuel hfu => (h5 fuel hfu).1, hs, n1, n2, fun d => ?_, fun d => ?_, fun v x hv hx => ?_⟩
  · rw [m1]
    constructor
    · rintro ⟨hd, c, hc, l, hl, ⟨r, hr, hrd⟩, _⟩
      obtain ⟨f, hf, hrf⟩ := (huse r).1 ⟨c, hc, l, hl, hr⟩
      exact ⟨hd, f, hf, r, hrf, hrd⟩
    · rintro ⟨hd, f, hf, r, hr, hrd⟩
      obtain ⟨c, hc, l, hl, h6⟩ := (huse r).2 ⟨f, hf, hr⟩
      obtain ⟨c, hc, l, hl, h6, h7⟩ := hdiag r ⟨c, hc, l, hl, Or.inl h6⟩
      exact ⟨hd, c, hc, l, hl, ⟨r, h6, hrd⟩, r, h7, d, hd, hrd⟩
  · rw [m2]
    constructor
    · rintro ⟨hd, c, hc, l, hl, ⟨r, hr, hrd⟩, _⟩
      obtain ⟨c, hc, l, hl, h6, h7⟩ := hdiag r ⟨c, hc, l, hl, Or.inr hr⟩
      obtain ⟨f, hf, hrf⟩ := (huse r).1 ⟨c, hc, l, hl, h6⟩
      exact ⟨hd, f, hf, r, hrf, hrd⟩
    · rintro ⟨hd, f, hf, r, hr, hrd⟩
      obtain ⟨c, hc, l, hl, h6⟩ := (huse r).2 ⟨f, hf, hr⟩
      obtain ⟨c, hc, l, hl, h6, h7⟩ := hdiag r ⟨c, hc, l, hl, Or.inl h6⟩
      exact ⟨hd, c, hc, l, hl, ⟨r, h7, hrd⟩, r, h6, d, hd, hrd⟩
  · rw [Asm.matrix_val ho hs, Asm.corr_val ho hs hbnd, ← h4, ← Asm.assemble2_val hA hv hx.1 hx.2, one_mul]

end Verif.Intg
