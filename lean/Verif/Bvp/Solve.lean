import Verif.Bvp.Galerkin

/-!
# From the assembled system to the discrete problem
-/

namespace Verif.Bvp
open Verif.Line Verif.OneD Verif.Fem Verif.Form Verif.Asm Verif.Geom Verif.Gauss
open Verif.Dir (consOf look look_mem)
open Verif.Gal (level_acyclic)

section
variable {close : ℝ → ℝ → Bool} {xs : List ℝ} {e : ET} {sf : Option Nat} {m : Nat} {F : List (Cell ℝ)} {D : DH} {V : DV ℝ} {L : List IN}
variable {n j : Nat} {re : List (ℝ × ℝ)} {k kf kn : Kernel ℝ} {κ f : Polynomial ℝ} {dir neu : ℝ → Bool} {g gN : ℝ → ℝ} {mk : VX → Bool}

theorem hng_none (d : List (Nat × ℝ)) (a : Nat) : (consOf [] d).hng a = none := rfl

theorem dir_look (d : List (Nat × ℝ)) (a : Nat) : (consOf [] d).dir a = look d a := rfl

/-- The dof at an end with a Dirichlet value is in the dictionary. -/
theorem dict_end (h : Setting close xs e sf m F D V L) {d : List (Nat × ℝ)} (hd : BndDict xs sf F D dir g d) {c : IN} (hc : c ∈ L) {i : Fin 2} {x : ℝ}
    (hx : coord F c i = some x) (h1 : IsEnd xs x) (h2 : dir x = true) : (consOf [] d).dir (dof D c i) = some (g x) := by
  have hi : i.1 < nd1 e := by have := h.nd.1; omega
  exact (hd.2 _ _).2 ⟨c, i, x, (h.mem c).1 hc, hx, h1, h2, (h.row hc).2.2 i hi, rfl⟩

/-- The admissible test functions vanish at the Dirichlet ends. -/
theorem test_iff (h : Setting close xs e sf m F D V L) {d : List (Nat × ℝ)} (hd : BndDict xs sf F D dir g d) (v : Nat → ℝ) :
    Asm.Test (consOf [] d).hng (consOf [] d).dir v ↔ ∀ x, IsEnd xs x → dir x = true → atX F D L v x = 0 := by
  constructor
  · rintro ⟨_, h2⟩ x hx hdx
    obtain ⟨c, hc, i, hi⟩ := h.end_leaf hx
    rw [h.atX v hc hi, h2 _ _ (hng_none d _) (dict_end h hd hc hi hx hdx), zero_mul]
  · intro hz
    refine ⟨fun a S hS => (by cases hS), fun a y _ hy => ?_⟩
    obtain ⟨c, i, x, hl, hx, h1, h2, hv, _⟩ := (hd.2 a y).1 hy
    have := hz x h1 h2
    rw [h.atX v ((h.mem c).2 hl) hx] at this
    have e1 : dof D c i = a := by unfold dof; rw [hv]; rfl
    rw [zero_mul, ← e1, this]

theorem dict_level (d : List (Nat × ℝ)) (hd : (d.map (·.1)).Nodup) (n : Nat) :
    Asm.OneLevel (consOf [] d).hng (consOf [] d).dir n [] (d.map (·.1)) where
  hkeys := fun a => by simp [hng_none]
  hnodup := List.nodup_nil
  dkeys := fun a => look_mem a
  dnodup := hd
  below := fun a S hS => (by cases hS)
  chain := fun a S hS => (by cases hS)
  disj := fun a hS => (by cases hS)

theorem row_mem (h : Setting close xs e sf m F D V L) {c : IN} (hc : c ∈ L) (r : Nat) :
    r ∈ (rowOf D c).getD [] ↔ ∃ i < nd1 e, dof D c i = r := by
  obtain ⟨h1, h2, _⟩ := h.row hc
  constructor
  · intro hr
    obtain ⟨i, hi, rfl⟩ := List.mem_iff_getElem.1 hr
    refine ⟨i, h1 ▸ hi, ?_⟩
    rw [← h2 i (h1 ▸ hi), List.getD_eq_getElem?_getD, List.getElem?_eq_getElem hi]
    rfl
  · rintro ⟨i, hi, rfl⟩
    rw [← h2 i hi, List.getD_eq_getElem?_getD, List.getElem?_eq_getElem (h1.symm ▸ hi)]
    exact List.getElem_mem _

theorem same1 (e : ET) (ts : List BTerm) (re : List (ℝ × ℝ)) (j : Nat) (F : List (Cell ℝ)) (D : DH) (L : List IN) : SameBasis (contribs1 e ts re j F D L) := by
  intro x hx l hl
  obtain ⟨c, _, rfl⟩ := List.mem_map.1 hx
  obtain ⟨t, _, rfl⟩ := List.mem_map.1 hl
  rfl

theorem uses2_iff (h : Setting close xs e sf m F D V L) (k : Kernel ℝ) (r : Nat) :
    Uses2 (contribs1 e (stiffness k) re j F D L) r ↔ ∃ c ∈ L, ∃ i < nd1 e, dof D c i = r := by
  unfold Uses2 contribs1
  constructor
  · rintro ⟨x, hx, l, hl, hr⟩
    obtain ⟨c, hc, rfl⟩ := List.mem_map.1 hx
    obtain ⟨t, _, rfl⟩ := List.mem_map.1 hl
    exact ⟨c, hc, (row_mem h hc r).1 hr⟩
  · rintro ⟨c, hc, hr⟩
    exact ⟨_, List.mem_map.2 ⟨c, hc, rfl⟩, _, List.mem_map.2 ⟨⟨k, [1, 0], [1, 0], none⟩, List.mem_cons_self, rfl⟩, (row_mem h hc r).2 hr⟩

theorem uses1_iff (h : Setting close xs e sf m F D V L) (kf kn : Kernel ℝ) (mk : VX → Bool) (r : Nat) :
    Uses1 (loads1 e (rhs kf kn mk) re j F D L) r ↔ ∃ c ∈ L, ∃ i < nd1 e, dof D c i = r := by
  unfold Uses1 loads1
  constructor
  · rintro ⟨x, hx, l, hl, hr⟩
    obtain ⟨c, hc, rfl⟩ := List.mem_map.1 hx
    obtain ⟨t, _, rfl⟩ := List.mem_map.1 hl
    exact ⟨c, hc, (row_mem h hc r).1 hr⟩
  · rintro ⟨c, hc, hr⟩
    exact ⟨_, List.mem_map.2 ⟨c, hc, rfl⟩, _, List.mem_map.2 ⟨.dx kf [0] none, List.mem_cons_self, rfl⟩, (row_mem h hc r).2 hr⟩

theorem reach_nil {d : List (Nat × ℝ)} {r f : Nat} (hr : Asm.Reach (consOf [] d).hng r f) : r = f := by
  induction hr with
  | refl => rfl
  | tail _ hst _ =>
    obtain ⟨S, hS, _⟩ := hst
    cases hS

theorem dof_lt (h : Setting close xs e sf m F D V L) {c : IN} (hc : c ∈ L) {p : Nat} (hp : p < nd1 e) : dof D c p < D.count := by
  obtain ⟨_, hs, _⟩ := h.ready.uses.inv (fun h => by cases h)
  exact hs.lt (c, ⟨p, hp⟩) _ ((h.row hc).2.2 p hp)

/-- What `solve` returns is the solution of the discrete problem. -/
theorem discrete (h : Setting close xs e sf m F D V L) {d : List (Nat × ℝ)} (hd : BndDict xs sf F D dir g d) {keep fuel} {ord : List ℕ → List ℕ}
    (ho : SetOrder ord) (ha : Ascending ord) {y u : List ℝ}
    (hr : Run (consOf [] d) D.count [] (d.map (·.1)) keep fuel (contribs1 e (stiffness k) re j F D L) (loads1 e (rhs kf kn mk) re j F D L) ord y u) :
    Discrete xs e F D L j re k kf kn dir g mk (fun a => u.getD a 0) := by
  obtain ⟨af2, af1, A, ub, b, x0, h2, h1, hs2, hs1, hx0, hl, hy, hu⟩ := hr.run
  obtain ⟨_, ⟨_, hDir⟩, hsol⟩ := C54_solve_partial (dict_level d hd.1 D.count) (same1 _ _ _ _ _ _ _)
    (fun r => (uses2_iff h k r).trans (uses1_iff h kf kn mk r).symm) h2 h1 ho ha hs2 hs1 (fun z hz => by rw [hx0] at hz; cases hz; exact hy) hu
  refine ⟨fun x hx hdx => ?_, fun v hv => hsol v ((test_iff h hd v).2 hv)⟩
  obtain ⟨c, hc, i, hi⟩ := h.end_leaf hx
  rw [h.atX _ hc hi]
  have := hDir _ _ (hng_none d _) (dict_end h hd hc hi hx hdx)
  simpa using this

/-- Some node of some leaf is not a Dirichlet end. -/
def Inner (xs : List ℝ) (e : ET) (F : List (Cell ℝ)) (L : List IN) (dir : ℝ → Bool) : Prop :=
  ∃ c ∈ L, ∃ p < nd1 e, ∀ x, nodeX F e c p = some x → ¬ (IsEnd xs x ∧ dir x = true)

theorem inner_free (h : Setting close xs e sf m F D V L) {d : List (Nat × ℝ)} (hd : BndDict xs sf F D dir g d) {c : IN} (hc : c ∈ L) {p : Nat}
    (hp : p < nd1 e) (hn : ∀ x, nodeX F e c p = some x → ¬ (IsEnd xs x ∧ dir x = true)) : Asm.Free (consOf [] d).hng (consOf [] d).dir (dof D c p) := by
  refine ⟨rfl, ?_⟩
  cases hl : (consOf [] d).dir (dof D c p) with
  | none => rfl
  | some v =>
    obtain ⟨c', i, x, hlf, hx, h1, h2, hv, _⟩ := (hd.2 _ v).1 hl
    have hc' := (h.mem c').2 hlf
    have hi : i.1 < nd1 e := by have := h.nd.1; omega
    have e1 : dof D c p = dof D c' i := by
      have : dof D c' i = dof D c p := by conv_lhs => unfold dof; rw [hv]
                                          rfl
      exact this.symm
    have := (h.shared hc hc' hp hi).1 e1
    rw [h.nodeX_end hc' i, hx] at this
    exact absurd ⟨h1, h2⟩ (hn x this)

/-- Some leaf has a Dirichlet dof and a free dof. -/
theorem mixes (h : Setting close xs e sf m F D V L) {d : List (Nat × ℝ)} (hd : BndDict xs sf F D dir g d) {y : ℝ} (hy : IsEnd xs y) (hdy : dir y = true)
    (hI : Inner xs e F L dir) : ∃ c ∈ L, ∃ p < nd1 e, ∃ q < nd1 e, Asm.Free (consOf [] d).hng (consOf [] d).dir (dof D c p) ∧
      ((consOf [] d).dir (dof D c q)).isSome := by
  by_contra hno
  have hnd := h.nd.1
  -- the function that is zero at the Dirichlet dofs and one elsewhere is constant on every leaf
  set v : Nat → ℝ := fun a => if ((consOf [] d).dir a).isSome then 0 else 1 with hv
  have hcell : ∀ c ∈ L, ∀ p < nd1 e, ∀ q < nd1 e, v (dof D c p) = v (dof D c q) := by
    intro c hc p hp q hq
    simp only [hv]
    cases h1 : (consOf [] d).dir (dof D c p) <;> cases h2 : (consOf [] d).dir (dof D c q)
    · rfl
    · exact absurd ⟨c, hc, p, hp, q, hq, ⟨rfl, h1⟩, by rw [h2]; rfl⟩ hno
    · exact absurd ⟨c, hc, q, hq, p, hp, ⟨rfl, h2⟩, by rw [h1]; rfl⟩ hno
    · rfl
  have hc0 := h.const v (fun c hc => hcell c hc 0 (by omega) 1 hnd) hy
  obtain ⟨cy, hcy, i, hi⟩ := h.end_leaf hy
  have hz : atX F D L v y = 0 := by
    rw [h.atX v hcy hi]
    simp only [hv]
    rw [dict_end h hd hcy hi hy hdy]
    rfl
  obtain ⟨c, hc, p, hp, hn⟩ := hI
  have hf := inner_free h hd hc hp hn
  have h1 : v (dof D c p) = 1 := by
    simp only [hv]
    rw [hf.2]
    rfl
  rw [hcell c hc p hp 0 (by omega), (hc0 c hc).1, hz] at h1
  exact zero_ne_one h1

/-- There is a free dof unless all nodes are Dirichlet ends. -/
theorem inner_iff (h : Setting close xs e sf m F D V L) : Inner xs e F L dir ↔ e ≠ .Q1 ∨ L.length ≠ 1 ∨ ∃ x, IsEnd xs x ∧ dir x = false := by
  obtain ⟨a, b, bs, ha, hb, hab, ht, hpm⟩ := h.tiles
  have hnd := h.nd.1
  have hxe : ∀ x, IsEnd xs x ↔ x = a ∨ x = b := by
    intro x
    unfold IsEnd
    rw [ha, hb]
    simp [eq_comm]
  have hlen := hpm.length_eq
  rw [List.length_map] at hlen
  have hbox : ∀ c ∈ L, a ≤ (dataAt F c).lo ∧ (dataAt F c).lo < (dataAt F c).hi ∧ (dataAt F c).hi ≤ b :=
    fun c hc => (tiles_mem ht).2 _ (hpm.mem_iff.2 (List.mem_map.2 ⟨c, hc, rfl⟩))
  have hnode : ∀ c ∈ L, ∀ i : Fin 2, nodeX F e c i = some (if i = 0 then (dataAt F c).lo else (dataAt F c).hi) := by
    intro c hc i
    rw [h.nodeX_end hc i, h.coord hc i]
  constructor
  · rintro ⟨c, hc, p, hp, hn⟩
    by_contra hcon
    push Not at hcon
    obtain ⟨rfl, h1, h2⟩ := hcon
    have hp2 : p < 2 := hp
    obtain ⟨u, rfl⟩ := List.length_eq_one_iff.1 (hlen.trans h1)
    obtain ⟨rfl, _, h3⟩ := ht
    simp only [Tiles] at h3
    have hu := List.mem_singleton.1 (hpm.mem_iff.2 (List.mem_map.2 ⟨c, hc, rfl⟩))
    have hd : ∀ x, IsEnd xs x → dir x = true := fun x hx => by
      have := h2 x hx
      simpa using this
    have hx := hnode c hc ⟨p, hp2⟩
    refine hn _ hx ⟨?_, hd _ ?_⟩ <;>
    · rw [hxe, ← h3, ← hu]
      split_ifs
      · exact .inl rfl
      · exact .inr rfl
  · intro hcon
    by_cases hdd : ∃ x, IsEnd xs x ∧ dir x = false
    · obtain ⟨x, hx, hdx⟩ := hdd
      obtain ⟨c, hc, i, hi⟩ := h.end_leaf hx
      refine ⟨c, hc, i, by omega, fun x' hx' => ?_⟩
      rw [h.nodeX_end hc i, hi] at hx'
      cases hx'
      simp [hdx]
    · by_cases h1 : L.length = 1
      · have hne : e ≠ .Q1 := by
          rcases hcon with h2 | h2 | h2
          · exact h2
          · exact absurd h1 h2
          · exact absurd h2 hdd
        obtain ⟨c, rfl⟩ := List.length_eq_one_iff.1 h1
        have hc : c ∈ [c] := List.mem_singleton_self c
        have hcont := h.cont
        have h2 : 2 < nd1 e ∧ 0 < (nodes1 e : List ℝ).getD 2 0 ∧ (nodes1 e : List ℝ).getD 2 0 < 1 := by
          clear h hnode hcon
          cases e <;> simp_all [torn, nd1, dpv, dpe1, nodes1, intDofs, List.range_succ] <;> norm_num
        refine ⟨c, hc, 2, h2.1, fun x hx => ?_⟩
        rw [nodeX_at h hc h2.1] at hx
        have hx' := Option.some.inj hx
        rw [hxe]
        have hb' := hbox c hc
        have h3 : (dataAt F c).lo < x := by rw [← hx']; simp only [toPhys]; nlinarith
        have h4 : x < (dataAt F c).hi := by rw [← hx']; simp only [toPhys]; nlinarith
        rintro ⟨rfl | rfl, _⟩ <;> linarith
      · -- more than one leaf: the right end of the first piece
        match bs, ht, hpm, hlen with
        | [], ht, _, _ => simp only [Tiles] at ht; exact absurd ht hab.ne
        | [u], _, _, hlen => exact absurd hlen.symm h1
        | u :: w :: bs, ht, hpm, _ =>
          obtain ⟨rfl, hu, hw, hw2, h3⟩ := ht
          have hle := (tiles_mem h3).1
          obtain ⟨c, hc, hce⟩ := List.mem_map.1 (hpm.mem_iff.1 List.mem_cons_self)
          refine ⟨c, hc, 1, hnd, fun x hx => ?_⟩
          have h5 := hnode c hc 1
          have h6 : nodeX F e c 1 = some (dataAt F c).hi := h5
          rw [hx] at h6
          have h7 : x = (dataAt F c).hi := Option.some.inj h6
          have h8 : (dataAt F c).hi = u.2 := by rw [← hce]
          rw [hxe, h7, h8]
          rintro ⟨h9 | h9, _⟩ <;> linarith

/-- **`solve` returns exactly one answer.** -/
theorem total (h : Setting close xs e sf m F D V L) (hre : Gauss.rule1 n = .ok re) (hn : deg e ≤ n) {S : Nat} (hS : sampleSize k = .ok S)
    (hk : ∀ x, InDom xs x → 0 < k.eval S x j) {d : List (Nat × ℝ)} (hd : BndDict xs sf F D dir g d) {y : ℝ} (hy : IsEnd xs y) (hdy : dir y = true)
    (hI : Inner xs e F L dir) (keep : Bool) (kf kn : Kernel ℝ) (mk : VX → Bool) {ord : List ℕ → List ℕ} (ho : SetOrder ord) (hasc : Ascending ord) :
    ∃ N, ∀ fuel ≥ N, (∃ y u, Run (consOf [] d) D.count [] (d.map (·.1)) keep fuel
        (contribs1 e (stiffness k) re j F D L) (loads1 e (rhs kf kn mk) re j F D L) ord y u) ∧
      ∀ y u y' u', Run (consOf [] d) D.count [] (d.map (·.1)) keep fuel
        (contribs1 e (stiffness k) re j F D L) (loads1 e (rhs kf kn mk) re j F D L) ord y u →
        Run (consOf [] d) D.count [] (d.map (·.1)) keep fuel
        (contribs1 e (stiffness k) re j F D L) (loads1 e (rhs kf kn mk) re j F D L) ord y' u' → y = y' ∧ u = u' := by
  refine C54_total (dict_level d hd.1 D.count) keep (same1 _ _ _ _ _ _ _) (fun r => (uses2_iff h k r).trans (uses1_iff h kf kn mk r).symm)
    ?_ ?_ ?_ ?_ ?_ ?_ ho hasc
  · intro c hc
    simp only [contribs1, List.mem_map] at hc
    obtain ⟨_, _, rfl⟩ := hc
    simp [stiffness]
  · intro c hc
    simp only [loads1, List.mem_map] at hc
    obtain ⟨_, _, rfl⟩ := hc
    simp [rhs]
  · intro r hr
    obtain ⟨c, hc, i, hi, rfl⟩ := (uses2_iff h k r).1 hr
    exact dof_lt h hc hi
  · intro a ha
    obtain ⟨v, hv⟩ := Option.isSome_iff_exists.1 ((look_mem a).1 ha)
    obtain ⟨c, i, x, hl, _, _, _, hv, _⟩ := (hd.2 a v).1 hv
    have := dof_lt h ((h.mem c).2 hl) (show i.1 < nd1 e by have := h.nd.1; omega)
    unfold dof at this
    rw [hv] at this
    exact this
  · intro v hv h0 f r _ hr hrf
    have hz := (test_iff h hd v).1 hv
    obtain ⟨c, hc, i, hi, rfl⟩ := (uses2_iff h k r).1 hr
    rw [← reach_nil hrf]
    exact definite h hre hn hS hk hy (hz y hy hdy) h0 c hc i hi
  · obtain ⟨c, hc, p, hp, q, hq, h1, h2⟩ := mixes h hd hy hdy hI
    exact ⟨_, List.mem_map.2 ⟨c, hc, rfl⟩, _, List.mem_map.2 ⟨⟨k, [1, 0], [1, 0], none⟩, List.mem_cons_self, rfl⟩,
      dof D c p, (row_mem h hc _).2 ⟨p, hp, rfl⟩, dof D c q, (row_mem h hc _).2 ⟨q, hq, rfl⟩, _, _, h1, .refl, rfl, h2, .refl⟩

end
end Verif.Bvp
