import Verif.Bnd.SegProps
import Verif.Dof.HangProps

/-! # C64: the boundary segments are the boundary -/

namespace Verif.Bnd
open Verif.Mesh Verif.Dof

section
set_option linter.unusedSectionVars false
variable {K : Type} [Field K] {B : Base K} {s : St K} {sf : Bool}

/-! ### Half-edges without a twin -/

theorem root_ex (hi : CInv B s) {k : Nat} (hk : k < 4 * B.n) : ∃ r, s.he (.root k) = some r := by
  refine Option.isSome_iff_exists.1 ?_
  rw [hi.ex]
  show k / 4 < B.n
  omega

theorem bndRoots_eq (hB : B.WF) (hs : MReach B s) : bndRoots B.n s = (List.range (4 * B.n)).filter (fun k => decide (B.T k = none)) := by
  have hi := hs.inv hB
  unfold bndRoots
  apply List.filter_congr
  intro k hk
  rw [List.mem_range] at hk
  obtain ⟨r, hr⟩ := root_ex hi hk
  rw [hr]
  simp only [decide_eq_decide]
  have := hi.hinv.tw _ r hr
  constructor
  · intro h
    cases hT : B.T k with
    | none => rfl
    | some j =>
      have := (this (.root j)).2 ⟨by simp [vt, hT], by
        obtain ⟨q, hq⟩ := root_ex hi (hB.lt k j hT)
        rw [hq]; rfl⟩
      rw [h] at this
      cases this
  · intro h
    cases ht : r.twin with
    | none => rfl
    | some t =>
      have := ((this t).1 ht).1
      simp [vt, h] at this

theorem ends_root (hB : B.WF) (hs : MReach B s) {k : Nat} (hk : k < 4 * B.n) : ends s (.root k) = (.root (B.b k), .root (B.hd k)) := by
  obtain ⟨r, hr⟩ := root_ex (hs.inv hB) hk
  obtain ⟨h1, h2⟩ := root_verts hB hs k r hr
  unfold ends
  rw [hr]
  simp only [h1, h2]

theorem path_map {V W α : Type} {C : α → V × V} {C' : α → W × W} (f : V → W) {g : List α}
    (h : ∀ x ∈ g, C' x = (f (C x).1, f (C x).2)) (hp : Path C g) : Path C' g := by
  induction g with
  | nil => trivial
  | cons a g ih =>
    cases g with
    | nil => trivial
    | cons b g =>
      refine ⟨?_, ih (fun x hx => h x (List.mem_cons_of_mem _ hx)) hp.2⟩
      rw [h a (by simp), h b (by simp)]
      exact congrArg f hp.1

theorem loop_map {V W α : Type} {C : α → V × V} {C' : α → W × W} (f : V → W) {g : List α}
    (h : ∀ x ∈ g, C' x = (f (C x).1, f (C x).2)) (hp : Loop C g) : Loop C' g := by
  obtain ⟨h1, a, b, ha, hb, e⟩ := hp
  refine ⟨path_map f h h1, a, b, ha, hb, ?_⟩
  rw [h a (List.mem_of_mem_head? ha), h b (List.mem_of_getLast? hb)]
  exact congrArg f e

theorem OneBoundary.simple (h : OneBoundary B) (hB : B.WF) (hs : MReach B s) :
    SimpleLoop (fun k => ends s (.root k)) (bndRoots B.n s) := by
  rw [bndRoots_eq hB hs]
  obtain ⟨g, h1, h2, h3, h4⟩ := h
  have hlt : ∀ k ∈ g, k < 4 * B.n := fun k hk => by
    have := h1.mem_iff.1 hk
    rw [List.mem_filter, List.mem_range] at this
    exact this.1
  refine ⟨g, h1, loop_map (C := fun k => (B.b k, B.hd k)) VN.root (fun k hk => ends_root hB hs (hlt k hk)) h2, ?_, h4⟩
  have : g.map (fun k => (ends s (.root k)).1) = (g.map (fun k => B.b k)).map VN.root := by
    rw [List.map_map]
    apply List.map_congr_left
    intro k hk
    rw [ends_root hB hs (hlt k hk)]
    rfl
  rw [this]
  exact List.Nodup.map (fun a b h => by injection h) h3

/-! ### Where the half-edges are -/

theorem vt_none_kid {T : Nat → Option Nat} (h : HN) (b : Bool) : vt T (.kid h b) = none ↔ vt T h = none := by
  simp [vt]

theorem climb_on_side (p : List (Fin 4)) {z : ℚ × ℚ} (hz : InSq z) {j : Fin 4} {r : ℚ} (h : climb p z = E j r) :
    ∃ r', z = E j r' := by
  induction p generalizing z with
  | nil => exact ⟨r, h⟩
  | cons k p ih =>
    obtain ⟨r', h'⟩ := ih (emb_insq k hz) h
    rcases emb_on_side k j hz h' with ⟨_, h, _⟩ | ⟨_, h, _⟩
    · exact ⟨_, h⟩
    · exact ⟨_, h⟩

/-- A side of a cell has no twin, and will never have one, iff it lies on a side of the initial cell without twin. -/
theorem vt_none_iff (B : Base K) (c : CN) (i : Fin 4) : vt B.T (side c i) = none ↔ OnBoundary B c i := by
  obtain ⟨f, p⟩ := c
  induction p generalizing i with
  | nil =>
    constructor
    · intro h
      refine ⟨i, ?_, fun t h0 h1 => ⟨t, h0, h1, rfl⟩⟩
      simpa [side, sideL, vt] using h
    · rintro ⟨j, hj, h⟩
      obtain ⟨r, h0, h1, e⟩ := h (1 / 2) (by norm_num) (by norm_num)
      have : i = j := E_two i j (by norm_num) (by norm_num) e (by norm_num)
      subst this
      simpa [side, sideL, vt] using hj
  | cons k p ih =>
    have key : ∀ (j : Fin 4) (a : ℚ → ℚ), (∀ t, 0 ≤ t → t ≤ 1 → 0 ≤ a t ∧ a t ≤ 1) → (∀ t, emb k (E i t) = E j (a t)) →
        ((0 : ℚ) < a (1 / 2) ∧ a (1 / 2) < 1) → (OnBoundary B (f, k :: p) i ↔ OnBoundary B (f, p) j) := by
      intro j a ha he hmid
      constructor
      · rintro ⟨j', hj', h⟩
        refine ⟨j', hj', fun t h0 h1 => ?_⟩
        obtain ⟨r, r0, r1, e⟩ := h (1 / 2) (by norm_num) (by norm_num)
        have e1 : climb p (emb k (E i (1 / 2))) = E j' r := e
        rw [he] at e1
        obtain ⟨r', e2⟩ := climb_on_side p (E_insq j hmid.1.le hmid.2.le) e1
        have hjj : j = j' := E_two j j' hmid.1.le hmid.2.le e2 (by
          rintro (h | h)
          · exact hmid.1.ne' h
          · exact hmid.2.ne h)
        subst hjj
        -- the whole side
        have hgo : ∀ (p : List (Fin 4)) (x : ℚ), 0 < x → x < 1 → (∃ r, climb p (E j x) = E j r) → ∀ t, 0 ≤ t → t ≤ 1 → ∃ r : ℚ, 0 ≤ r ∧ r ≤ 1 ∧ climb p (E j t) = E j r := by
          intro p
          induction p with
          | nil => exact fun x _ _ _ t h0 h1 => ⟨t, h0, h1, rfl⟩
          | cons k p ih =>
            rintro x x0 x1 ⟨r, hr⟩ t h0 h1
            have hr' : climb p (emb k (E j x)) = E j r := hr
            obtain ⟨r1, hr1⟩ := climb_on_side p (emb_insq k (E_insq j x0.le x1.le)) hr'
            rcases emb_on_side k j (E_insq j x0.le x1.le) hr1 with ⟨rfl, h, hh⟩ | ⟨rfl, h, hh⟩
            · rw [emb_k] at hr'
              obtain ⟨q, q0, q1, e⟩ := ih (x / 2) (by linarith) (by linarith) ⟨r, hr'⟩ (t / 2) (by linarith) (by linarith)
              exact ⟨q, q0, q1, by show climb p (emb k (E k t)) = _; rw [emb_k]; exact e⟩
            · rw [emb_k3] at hr'
              obtain ⟨q, q0, q1, e⟩ := ih ((1 + x) / 2) (by linarith) (by linarith) ⟨r, hr'⟩ ((1 + t) / 2) (by linarith) (by linarith)
              exact ⟨q, q0, q1, by show climb p (emb (j + 1) (E j t)) = _; rw [emb_k3]; exact e⟩
        exact hgo p (a (1 / 2)) hmid.1 hmid.2 ⟨r, e1⟩ t h0 h1
      · rintro ⟨j', hj', h⟩
        refine ⟨j', hj', fun t h0 h1 => ?_⟩
        obtain ⟨r, r0, r1, e⟩ := h (a t) (ha t h0 h1).1 (ha t h0 h1).2
        exact ⟨r, r0, r1, by show climb p (emb k (E i t)) = _; rw [he]; exact e⟩
    have h4 : i = k ∨ i = k + 1 ∨ i = k + 2 ∨ i = k + 3 := by clear * -; revert i k; decide
    have hbad : i = k + 1 ∨ i = k + 2 → ¬ OnBoundary B (f, k :: p) i := by
      rintro hik ⟨j, _, h⟩
      obtain ⟨r, r0, r1, e⟩ := h (1 / 2) (by norm_num) (by norm_num)
      have e1 : climb p (emb k (E i (1 / 2))) = E j r := e
      have hsq : InSq (E i (1 / 2 : ℚ)) := E_insq i (by norm_num) (by norm_num)
      obtain ⟨r', e2⟩ := climb_on_side p (emb_insq k hsq) e1
      have hij : i = j := by
        rcases emb_on_side k j hsq e2 with ⟨_, e3, _⟩ | ⟨_, e3, _⟩
        · exact E_two i j (by norm_num) (by norm_num) e3 (by norm_num)
        · exact E_two i j (by norm_num) (by norm_num) e3 (by norm_num)
      have hkj : k = j ∨ k = j + 1 := by
        rcases emb_on_side k j hsq e2 with ⟨e3, _⟩ | ⟨e3, _⟩
        · exact .inl e3
        · exact .inr e3
      subst hij
      revert hik hkj
      clear * -
      revert i k
      decide
    rcases h4 with rfl | rfl | rfl | rfl
    · rw [key i (fun t => t / 2) (fun t h0 h1 => ⟨by linarith, by linarith⟩) (fun t => emb_k i t) (by norm_num), ← ih i]
      have := side_k (f, p) i
      rw [child] at this
      rw [this, vt_none_kid]
    · have := side_k1 (f, p) k
      rw [child] at this
      rw [this]
      simp [vt, hbad (.inl rfl)]
    · have := side_k2 (f, p) k
      rw [child] at this
      rw [this]
      simp [vt, hbad (.inr rfl)]
    · have hk : k = k + 3 + 1 := by clear * -; revert k; decide
      rw [key (k + 3) (fun t => (1 + t) / 2) (fun t h0 h1 => ⟨by linarith, by linarith⟩)
        (fun t => by conv_lhs => rw [hk]
                     exact (congrArg₂ emb rfl (by rw [← hk])).trans (emb_k3 (k + 3) t)) (by norm_num), ← ih (k + 3)]
      have := side_k3 (f, p) k
      rw [child] at this
      rw [this, vt_none_kid, fin4_c]

/-! ### Refining the half-edges of the initial mesh -/

/-- The number of the half-edge of the initial mesh that a half-edge without twin comes from. -/
def rootOf : HN → Nat
  | .root k => k
  | .kid h _ => rootOf h
  | .inner _ _ _ => 0

/-- Every initial cell is in the submesh. -/
def RootsIn (B : Base K) (sf : Bool) (s : St K) : Prop := ∀ f, f < B.n → Sub sf s (f, [])

theorem desc_iff (hi : CInv B s) (hr : RootsIn B sf s) (hf : sf = false ∨ (RootedFlag B s ∧ FullFlag s)) {g : List Nat}
    (hg : ∀ k ∈ g, k < 4 * B.n ∧ B.T k = none) (x : HN) :
    Desc sf s g x ↔ CEx B.n s.kids (owner x).1 ∧ Sub sf s (owner x).1 ∧ vt B.T x = none ∧ rootOf x ∈ g := by
  constructor
  · intro h
    induction h with
    | root k hk =>
      have := hg k hk
      exact ⟨by show k / 4 < B.n; omega, hr _ (by omega), by simp [vt, this.2], hk⟩
    | kid h b _ hk ih =>
      obtain ⟨h1, h2, h3, h4⟩ := ih
      refine ⟨?_, ?_, (vt_none_kid h b).2 h3, h4⟩
      · have := hasCh_kids hk
        cases b <;> exact this
      · rcases hf with rfl | ⟨_, hF⟩
        · exact .inl rfl
        · cases hsf : sf with
          | false => exact .inl rfl
          | true =>
            subst hsf
            right
            cases b <;> exact hF _ hk _
  · induction x with
    | root k => exact fun h => .root k h.2.2.2
    | inner c i d => exact fun h => by simp [vt] at h
    | kid h b ih =>
      rintro ⟨h1, h2, h3, h4⟩
      have hc : ∃ k, (owner (.kid h b)).1 = child (owner h).1 k := by
        cases b
        · exact ⟨_, rfl⟩
        · exact ⟨_, rfl⟩
      obtain ⟨k, hc⟩ := hc
      rw [hc] at h1 h2
      have hk : s.kids (owner h).1 = true := h1
      refine .kid h b (ih ⟨hi.pref _ hk, ?_, (vt_none_kid h b).1 h3, h4⟩) (hasCh_of hk h2)
      rcases hf with rfl | ⟨hR, _⟩
      · exact .inl rfl
      · rcases h2 with h2 | h2
        · exact .inl h2
        · exact .inr (hR _ k h1 h2)

end
end Verif.Bnd
