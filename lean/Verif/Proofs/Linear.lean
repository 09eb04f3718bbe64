import Verif.Spec.Linear
import Verif.Proofs.Binary64

/-!
# Helper lemmas: the rounding error of any linear computation
-/

set_option linter.unusedSectionVars false
set_option linter.unusedVariables false
set_option linter.unusedSimpArgs false

namespace Proofs.Linear
open Model Spec Proofs Proofs.Binary64 Complex

variable {rd : ℝ → ℝ}

theorem gain_one (a : Lin) : 1 ≤ a.gain := by
  induction a with
  | input i => exact le_rfl
  | add a b ha hb => unfold Lin.gain; linarith
  | sub a b ha hb => unfold Lin.gain; linarith
  | neg a ha => exact ha
  | scale c s a ha =>
    unfold Lin.gain
    have : (1 : ℝ) ≤ max 1 |c| := le_max_left _ _
    nlinarith
  | fma c s a b ha hb =>
    unfold Lin.gain
    have : (1 : ℝ) ≤ max 1 |c| := le_max_left _ _
    nlinarith

theorem exact_le {x : ℕ → ℝ} {S : ℝ} (m : ℕ) (hx : ∀ i < m, |x i| ≤ S) (a : Lin) (ha : a.Proper m) :
    |a.exact x| ≤ a.gain * S := by
  induction a with
  | input i => simpa [Lin.exact, Lin.gain] using hx i ha
  | add a b iha ihb =>
    have := abs_add_le (a.exact x) (b.exact x)
    have := iha ha.1
    have := ihb ha.2
    unfold Lin.exact Lin.gain
    linarith
  | sub a b iha ihb =>
    have := abs_sub (a.exact x) (b.exact x)
    have := iha ha.1
    have := ihb ha.2
    unfold Lin.exact Lin.gain
    linarith
  | neg a iha =>
    unfold Lin.exact Lin.gain
    rw [abs_neg]
    exact iha ha
  | scale c s a iha =>
    unfold Lin.exact Lin.gain
    rw [abs_mul, mul_assoc]
    exact mul_le_mul (le_max_right _ _) (iha ha.2) (abs_nonneg _) (le_trans zero_le_one (le_max_left _ _))
  | fma c s a b iha ihb =>
    unfold Lin.exact Lin.gain
    have h1 : |c * a.exact x| ≤ max 1 |c| * (a.gain * S) := by
      rw [abs_mul]
      exact mul_le_mul (le_max_right _ _) (iha ha.2.1) (abs_nonneg _) (le_trans zero_le_one (le_max_left _ _))
    have := abs_add_le (c * a.exact x) (b.exact x)
    have := ihb ha.2.2
    linarith

/-- The growth of the error with the depth. -/
noncomputable def P (d : ℕ) : ℝ := (1 + 8 * u) ^ d

theorem P_one (d : ℕ) : 1 ≤ P d := one_le_pow₀ (by have := u_pos; linarith)

theorem P_mono {d e : ℕ} (h : d ≤ e) : P d ≤ P e := pow_le_pow_right₀ (by have := u_pos; linarith) h

theorem P_succ (d : ℕ) : P (d + 1) = P d * (1 + 8 * u) := pow_succ _ _

/-- One operation: what is computed is near what is meant, in terms of a common bound. -/
theorem step (h : NearestDouble rd) {r w g S : ℝ} {d : ℕ} (hS : 1 ≤ S) (hg : 1 ≤ g) (hr : |r| ≤ g * S)
    (hw : |w - r| ≤ ((1 + 4 * u) * P d - 1) * (g * S)) (hm : 2 * (P (d + 1) * (g * S)) ≤ maxDouble) :
    Ap (roundDouble rd w) r ((P (d + 1) - 1) * (g * S)) := by
  have hu := u_pos
  have hu2 := u_small
  have hP := P_one d
  have hT : 1 ≤ g * S := by nlinarith
  set T := g * S with hTdef
  have h4 : (1 + 4 * u) * P d ≤ P (d + 1) := by rw [P_succ]; nlinarith
  have hwT : |w| ≤ (1 + 4 * u) * P d * T := by
    have := abs_le_of_near hw
    have e : ((1 + 4 * u) * P d - 1) * T = (1 + 4 * u) * P d * T - T := by ring
    linarith
  have h5 : (1 + 4 * u) * P d * T ≤ P (d + 1) * T := mul_le_mul_of_nonneg_right h4 (by linarith)
  have h6 : 0 ≤ P (d + 1) * T := mul_nonneg (by have := P_one (d + 1); linarith) (by linarith)
  obtain ⟨v, hv, h1, h2⟩ := round_ap h (x := w) (by linarith)
  refine ⟨v, hv, h1, ?_⟩
  have h7 := abs_sub_le v w r
  have h8 : u * (|w| + 1) ≤ u * ((1 + 4 * u) * P d * T + P d * T) := by
    refine mul_le_mul_of_nonneg_left ?_ hu.le
    have : 1 ≤ P d * T := by nlinarith
    linarith
  have h9 : ((1 + 4 * u) * P d - 1) * T + u * ((1 + 4 * u) * P d * T + P d * T) ≤ (P (d + 1) - 1) * T := by
    rw [P_succ]
    have : 0 ≤ P d * T := by nlinarith
    have h10 : (P d * (1 + 8 * u) - 1) * T - (((1 + 4 * u) * P d - 1) * T + u * ((1 + 4 * u) * P d * T + P d * T)) =
        (2 * u - 4 * u * u) * (P d * T) := by ring
    have h11 : 0 ≤ 2 * u - 4 * u * u := by nlinarith
    have := mul_nonneg h11 this
    linarith
  linarith

theorem scale_near {c s v r q T : ℝ} (hs : |s - c| ≤ max 1 |c| / 2 ^ 51) (hq : 1 ≤ q) (hr : |r| ≤ T)
    (hv : |v - r| ≤ (q - 1) * T) : |s * v - c * r| ≤ ((1 + 4 * u) * q - 1) * (max 1 |c| * T) := by
  have hu := u_pos
  have hC1 : (1 : ℝ) ≤ max 1 |c| := le_max_left _ _
  have hC2 : |c| ≤ max 1 |c| := le_max_right _ _
  set C := max 1 |c| with hC
  have hT : 0 ≤ T := (abs_nonneg _).trans hr
  have hs' : |s - c| ≤ 4 * u * C := by
    refine hs.trans (le_of_eq ?_)
    unfold u
    ring
  have hsC : |s| ≤ (1 + 4 * u) * C := by
    have := abs_le_of_near hs'
    linarith
  rw [show s * v - c * r = s * (v - r) + (s - c) * r by ring]
  refine (abs_add_le _ _).trans ?_
  rw [abs_mul, abs_mul]
  have h1 : |s| * |v - r| ≤ (1 + 4 * u) * C * ((q - 1) * T) := mul_le_mul hsC hv (abs_nonneg _) (by positivity)
  have h2 : |s - c| * |r| ≤ 4 * u * C * T := mul_le_mul hs' hr (abs_nonneg _) (by positivity)
  have h3 : ((1 + 4 * u) * q - 1) * (C * T) = (1 + 4 * u) * C * ((q - 1) * T) + 4 * u * C * T := by ring
  linarith

/-- The error of a computation by linear steps. -/
theorem run_near (h : NearestDouble rd) {y : ℕ → Option ℝ} {x : ℕ → ℝ} {S : ℝ} (hS : 1 ≤ S) (m : ℕ)
    (hy : ∀ i < m, Ap (y i) (x i) 0) (hx : ∀ i < m, |x i| ≤ S) (a : Lin) (ha : a.Proper m)
    (hm : 2 * (P a.depth * (a.gain * S)) ≤ maxDouble) :
    Ap (a.run rd y) (a.exact x) ((P a.depth - 1) * (a.gain * S)) := by
  have hu := u_pos
  have ex := exact_le m hx
  have lift : ∀ {d e : ℕ} {g g' : ℝ}, d ≤ e → 1 ≤ g → g ≤ g' → P d * (g * S) ≤ P e * (g' * S) := by
    intro d e g g' hd h0 hg
    have := P_one d
    exact mul_le_mul (P_mono hd) (mul_le_mul_of_nonneg_right hg (by linarith)) (by nlinarith) (by have := P_one e; linarith)
  have lift2 : ∀ {d e : ℕ} {g : ℝ}, d ≤ e → 1 ≤ g → (P d - 1) * (g * S) ≤ (P e - 1) * (g * S) := by
    intro d e g hd hg
    exact mul_le_mul_of_nonneg_right (by have := P_mono hd; linarith) (by nlinarith)
  have up : ∀ {d : ℕ} {T : ℝ}, 0 ≤ T → (P d - 1) * T ≤ ((1 + 4 * u) * P d - 1) * T := by
    intro d T hT
    refine mul_le_mul_of_nonneg_right ?_ hT
    have := P_one d
    nlinarith
  induction a with
  | input i => simpa [Lin.run, Lin.exact, Lin.depth, Lin.gain, P] using hy i ha
  | add a b iha ihb =>
    have ga := gain_one a
    have gb := gain_one b
    have la : a.depth ≤ max a.depth b.depth := le_max_left _ _
    have lb : b.depth ≤ max a.depth b.depth := le_max_right _ _
    unfold Lin.depth Lin.gain at hm ⊢
    obtain ⟨v, hv, dv, nv⟩ := iha ha.1 (by have := lift (show a.depth ≤ max a.depth b.depth + 1 by omega) ga (show a.gain ≤ a.gain + b.gain by linarith); linarith)
    obtain ⟨w, hw, dw, nw⟩ := ihb ha.2 (by have := lift (show b.depth ≤ max a.depth b.depth + 1 by omega) gb (show b.gain ≤ a.gain + b.gain by linarith); linarith)
    unfold Lin.run Lin.exact
    rw [hv, hw]
    have e1 := ex a ha.1
    have e2 := ex b ha.2
    refine step h hS (by linarith) ?_ ?_ hm
    · have := abs_add_le (a.exact x) (b.exact x)
      linarith
    · have h1 := nv.trans (lift2 la ga)
      have h2 := nw.trans (lift2 lb gb)
      refine le_trans ?_ (up (by nlinarith))
      rw [show v + w - (a.exact x + b.exact x) = (v - a.exact x) + (w - b.exact x) by ring]
      have := abs_add_le (v - a.exact x) (w - b.exact x)
      linarith
  | sub a b iha ihb =>
    have ga := gain_one a
    have gb := gain_one b
    have la : a.depth ≤ max a.depth b.depth := le_max_left _ _
    have lb : b.depth ≤ max a.depth b.depth := le_max_right _ _
    unfold Lin.depth Lin.gain at hm ⊢
    obtain ⟨v, hv, dv, nv⟩ := iha ha.1 (by have := lift (show a.depth ≤ max a.depth b.depth + 1 by omega) ga (show a.gain ≤ a.gain + b.gain by linarith); linarith)
    obtain ⟨w, hw, dw, nw⟩ := ihb ha.2 (by have := lift (show b.depth ≤ max a.depth b.depth + 1 by omega) gb (show b.gain ≤ a.gain + b.gain by linarith); linarith)
    unfold Lin.run Lin.exact
    rw [hv, hw]
    have e1 := ex a ha.1
    have e2 := ex b ha.2
    refine step h hS (by linarith) ?_ ?_ hm
    · have := abs_sub (a.exact x) (b.exact x)
      linarith
    · have h1 := nv.trans (lift2 la ga)
      have h2 := nw.trans (lift2 lb gb)
      refine le_trans ?_ (up (by nlinarith))
      rw [show v - w - (a.exact x - b.exact x) = (v - a.exact x) - (w - b.exact x) by ring]
      have := abs_sub (v - a.exact x) (w - b.exact x)
      linarith
  | neg a iha =>
    exact (iha ha hm).neg
  | scale c s a iha =>
    have ga := gain_one a
    have hC : (1 : ℝ) ≤ max 1 |c| := le_max_left _ _
    unfold Lin.depth Lin.gain at hm ⊢
    obtain ⟨v, hv, dv, nv⟩ := iha ha.2 (by have := lift (show a.depth ≤ a.depth + 1 by omega) ga (show a.gain ≤ max 1 |c| * a.gain by nlinarith); linarith)
    unfold Lin.run Lin.exact
    rw [hv]
    have e1 := ex a ha.2
    refine step h hS (by nlinarith) ?_ ?_ hm
    · rw [abs_mul, mul_assoc]
      exact mul_le_mul (le_max_right _ _) e1 (abs_nonneg _) (by linarith)
    · have := scale_near ha.1.2 (P_one a.depth) e1 nv
      rwa [← mul_assoc (max 1 |c|)] at this
  | fma c s a b iha ihb =>
    have ga := gain_one a
    have gb := gain_one b
    have hC : (1 : ℝ) ≤ max 1 |c| := le_max_left _ _
    have la : a.depth ≤ max a.depth b.depth := le_max_left _ _
    have lb : b.depth ≤ max a.depth b.depth := le_max_right _ _
    unfold Lin.depth Lin.gain at hm ⊢
    have gle : a.gain ≤ max 1 |c| * a.gain := by nlinarith
    obtain ⟨v, hv, dv, nv⟩ := iha ha.2.1 (by have := lift (show a.depth ≤ max a.depth b.depth + 1 by omega) ga (show a.gain ≤ max 1 |c| * a.gain + b.gain by linarith); linarith)
    obtain ⟨w, hw, dw, nw⟩ := ihb ha.2.2 (by have := lift (show b.depth ≤ max a.depth b.depth + 1 by omega) gb (show b.gain ≤ max 1 |c| * a.gain + b.gain by linarith); linarith)
    unfold Lin.run Lin.exact
    rw [hv, hw]
    have e1 := ex a ha.2.1
    have e2 := ex b ha.2.2
    have e3 : |c * a.exact x| ≤ max 1 |c| * (a.gain * S) := by
      rw [abs_mul]
      exact mul_le_mul (le_max_right _ _) e1 (abs_nonneg _) (by linarith)
    refine step h hS (by linarith) ?_ ?_ hm
    · have := abs_add_le (c * a.exact x) (b.exact x)
      linarith
    · have h1 := scale_near ha.1.2 (P_one (max a.depth b.depth)) e1 (nv.trans (lift2 la ga))
      have h2 := (nw.trans (lift2 lb gb)).trans (up (by nlinarith))
      rw [show s * v + w - (c * a.exact x + b.exact x) = (s * v - c * a.exact x) + (w - b.exact x) by ring]
      have := abs_add_le (s * v - c * a.exact x) (w - b.exact x)
      linarith

theorem P_bound {D : ℕ} (hD : 16 * D * u ≤ 1) : P D - 1 ≤ 16 * D * u := by
  have hu := u_pos
  have hu2 := u_small
  have h1 : (1 + 8 * u) ^ D * (1 - 8 * u) ^ D ≤ 1 := by
    rw [← mul_pow]
    refine pow_le_one₀ ?_ ?_ <;> nlinarith
  have h2 : 1 - D * (8 * u) ≤ (1 - 8 * u) ^ D := by
    have := one_add_mul_le_pow (a := -(8 * u)) (by linarith) D
    rw [← sub_eq_add_neg] at this
    linarith
  have hP := P_one D
  have h3 : P D * (1 - D * (8 * u)) ≤ 1 := (mul_le_mul_of_nonneg_left h2 (by linarith)).trans h1
  set z := (D : ℝ) * (8 * u) with hz
  have hz0 : 0 ≤ z := by positivity
  have hz1 : z ≤ 1 / 2 := by linarith
  have : 16 * D * u = 2 * z := by rw [hz]; ring
  rw [this]
  nlinarith

/-- The error of a computation in a library, in terms of depth and gain. -/
theorem cost_near (h : NearestDouble rd) {y : ℕ → Option ℝ} {x : ℕ → ℝ} {S G : ℝ} {D : ℕ} (hS : 1 ≤ S) (hSm : S ≤ 2 ^ 180)
    (m : ℕ) (hy : ∀ i < m, Ap (y i) (x i) 0) (hx : ∀ i < m, |x i| ≤ S) (a : Lin) (ha : a.Proper m) (hD : a.depth ≤ D)
    (hD1 : 1 ≤ D) (hG : a.gain ≤ G) (hu1 : 16 * D * G * u ≤ 1) :
    Ap (a.run rd y) (a.exact x) (16 * D * G * u * S) := by
  have hu := u_pos
  have hg := gain_one a
  have hG1 : 1 ≤ G := hg.trans hG
  have hD1' : (1 : ℝ) ≤ D := by exact_mod_cast hD1
  have hDu : 16 * D * u ≤ 1 := by
    refine le_trans ?_ hu1
    have : 0 ≤ 16 * D * u := by positivity
    nlinarith
  have hP := P_bound hDu
  have hPm := P_mono hD
  have hP1 := P_one a.depth
  have hG2 : G ≤ 2 ^ 53 := by
    have : G * u ≤ 1 := by
      have : 0 ≤ G * u := by positivity
      nlinarith
    unfold u at this
    rw [mul_one_div, div_le_one (by positivity)] at this
    exact this
  have hGS : a.gain * S ≤ 2 ^ 53 * 2 ^ 180 := mul_le_mul (hG.trans hG2) hSm (by linarith) (by positivity)
  refine (run_near h hS m hy hx a ha ?_).mono ?_
  · refine le_trans ?_ max_large
    have : P a.depth * (a.gain * S) ≤ 2 * (2 ^ 53 * 2 ^ 180) := mul_le_mul (by linarith) hGS (by nlinarith) (by norm_num)
    refine (mul_le_mul_of_nonneg_left this (by norm_num)).trans ?_
    norm_num
  · have h1 : (P a.depth - 1) * (a.gain * S) ≤ 16 * D * u * (G * S) :=
      mul_le_mul (by linarith) (mul_le_mul_of_nonneg_right hG (by linarith)) (by nlinarith) (by positivity)
    refine h1.trans (le_of_eq (by ring))

/-- Double-precision arithmetic with the transforms of a library follows the error model. -/
theorem model (h : NearestDouble rd) {L : Library} {n : ℕ} [NeZero n] (hn : n ≤ 1000) {D : ℕ} {G : ℝ} (hD1 : 1 ≤ D)
    (hL : Transforms L n D G) (hu1 : 16 * D * G * u ≤ 1) {B : ℝ} (hB : B ≤ 2 ^ 150) :
    FloatModel (libraryFl rd L) doubleVal DoubleOk n B (16 * D * G * u) := by
  have hu := u_pos
  have hu2 := u_small
  have hn1 : 0 < n := Nat.pos_of_ne_zero (NeZero.ne n)
  have hG1 : 1 ≤ G := (gain_one _).trans (hL.bwd_cost 0 hn1).2.2
  have hD1' : (1 : ℝ) ≤ D := by exact_mod_cast hD1
  have hmax := max_large
  have hone : (1 : ℝ) ≤ 2 ^ 150 := one_le_pow₀ one_le_two
  have hbig : 2 * (2 : ℝ) ^ 150 ≤ 2 ^ 250 := by norm_num
  set e := 16 * D * G * u with he
  have hue : 16 * u ≤ e := by
    have : 1 ≤ (D : ℝ) * G := by nlinarith
    rw [he]
    nlinarith
  have rnd : ∀ r, |r| ≤ 2 * (2 : ℝ) ^ 150 → Ap (roundDouble rd r) r (e * (|r| + 1)) := fun r hr =>
    (round_ap h (hr.trans (by linarith))).mono (mul_le_mul_of_nonneg_right (by linarith) (by positivity))
  have bin : ∀ (f : ℝ → ℝ → ℝ) x y, DoubleOk x → DoubleOk y → |f (doubleVal x) (doubleVal y)| ≤ 2 * (2 : ℝ) ^ 150 →
      DoubleOk (binDouble rd f x y) ∧ |doubleVal (binDouble rd f x y) - f (doubleVal x) (doubleVal y)| ≤
        e * (|f (doubleVal x) (doubleVal y)| + 1) := by
    rintro f _ _ ⟨a, rfl, ha⟩ ⟨b, rfl, hb⟩ hf
    exact (rnd _ hf).val
  refine ⟨?_, ?_, ?_, ?_, ?_, ?_, ?_, ?_, ?_, ?_, ?_, ?_, ?_⟩
  · intro z hz
    have hz' : |z| < 2 ^ 53 := by
      have : (n : ℤ) ≤ 1000 := by exact_mod_cast hn
      omega
    have : (libraryFl rd L).ofInt z = some (z : ℝ) := round_exact h (double_int hz')
    rw [this]
    exact ⟨⟨_, rfl, double_int hz'⟩, rfl⟩
  · intro a b ha hb
    have hb1 : (1 : ℝ) ≤ b := by exact_mod_cast hb
    have ha1 : |(a : ℝ)| ≤ 4 := by rw [← Int.cast_abs]; exact_mod_cast ha
    have hq : |(a : ℝ) / b| ≤ 4 := by
      rw [abs_div, abs_of_nonneg (show (0 : ℝ) ≤ b by linarith), div_le_iff₀ (by linarith)]
      linarith
    obtain ⟨h1, h2⟩ := (round_ap h (hq.trans (by linarith))).val
    refine ⟨h1, h2.trans ?_⟩
    nlinarith
  · intro x y hx hy h1 h2
    exact bin (· + ·) x y hx hy ((abs_add_le _ _).trans (by linarith))
  · intro x y hx hy h1 h2
    exact bin (· - ·) x y hx hy ((abs_sub _ _).trans (by linarith))
  · intro x y hx hy h1
    exact bin (· * ·) x y hx hy (h1.trans (by linarith))
  · intro x y hx hy h1 h2
    have e' : (libraryFl rd L).div x y = binDouble rd (· / ·) x y := by
      show (if y = some 0 then none else binDouble rd (· / ·) x y) = _
      rw [if_neg]
      rintro rfl
      simp [doubleVal] at h2
      linarith
    rw [e']
    refine bin (· / ·) x y hx hy ?_
    rw [abs_div, div_le_iff₀ (by linarith)]
    have := abs_nonneg (doubleVal x)
    nlinarith
  · rintro _ ⟨a, rfl, ha⟩
    exact ⟨⟨-a, rfl, double_neg ha⟩, rfl⟩
  · rintro _ ⟨a, rfl, ha⟩
    exact ⟨⟨|a|, rfl, double_abs ha⟩, rfl⟩
  · rintro _ _ ⟨a, rfl, ha⟩ ⟨b, rfl, hb⟩
    simp [libraryFl, doubleFl, doubleVal]
  · rintro _ ⟨a, rfl, ha⟩ _
    exact Gap.round_dist a
  · intro x hx
    have hlen : (x.map fun v => (libraryFl rd L).ofInt v).length = n := by rw [List.length_map]; exact hx.1
    constructor
    · show ((List.range (_ / 2 + 1)).map _).length = _
      rw [List.length_map, List.length_range, hlen]
    · intro k hk z hz
      have hz' : ((List.range ((x.map fun v => (libraryFl rd L).ofInt v).length / 2 + 1)).map fun k =>
        ((L.fwd (x.map fun v => (libraryFl rd L).ofInt v).length k).1.run rd
            fun j => (x.map fun v => (libraryFl rd L).ofInt v).getD j none,
          (L.fwd (x.map fun v => (libraryFl rd L).ofInt v).length k).2.run rd
            fun j => (x.map fun v => (libraryFl rd L).ofInt v).getD j none))[k]? = some z := hz
      rw [List.getElem?_map, hlen, List.getElem?_range (by omega)] at hz'
      obtain rfl := Option.some.inj hz'
      have hin : ∀ j < n, Ap ((x.map fun v => (libraryFl rd L).ofInt v).getD j none) ((x.getD j 0 : ℤ) : ℝ) 0 ∧
          |((x.getD j 0 : ℤ) : ℝ)| ≤ 1 := by
        intro j hj
        have hj' : j < x.length := by rw [hx.1]; exact hj
        rw [List.getD_eq_getElem _ _ (by simpa using hj'), List.getElem_map, List.getD_eq_getElem _ _ hj']
        have hpm := hx.2 _ (List.getElem_mem hj')
        have : (libraryFl rd L).ofInt x[j] = some ((x[j] : ℤ) : ℝ) := by
          refine round_exact h (double_int ?_)
          rcases hpm with e | e <;> rw [e] <;> norm_num
        rw [this]
        refine ⟨⟨_, rfl, double_int ?_, by simp⟩, ?_⟩
        · rcases hpm with e | e <;> rw [e] <;> norm_num
        · rcases hpm with e | e <;> rw [e] <;> norm_num
      have key : ∀ a, a = (L.fwd n k).1 ∨ a = (L.fwd n k).2 →
          Ap (a.run rd fun j => (x.map fun v => (libraryFl rd L).ofInt v).getD j none)
            (a.exact fun j => ((x.getD j 0 : ℤ) : ℝ)) (e * 1) := by
        intro a ha
        obtain ⟨c1, c2, c3⟩ := hL.fwd_cost k hk a ha
        exact cost_near h le_rfl (one_le_pow₀ one_le_two) n (fun j hj => (hin j hj).1) (fun j hj => (hin j hj).2) a c1 c2
          hD1 c3 hu1
      have k1 := (key _ (.inl rfl)).val
      have k2 := (key _ (.inr rfl)).val
      rw [mul_one, (hL.fwd x hx k hk).1] at k1
      rw [mul_one, (hL.fwd x hx k hk).2] at k2
      exact ⟨k1.1, k2.1, k1.2, k2.2⟩
  · intro X
    simp [libraryFl]
  · intro X hX hz t ht y hy
    have hy' : ((List.range n).map fun t => (L.bwd n t).run rd (parts none X))[t]? = some y := hy
    rw [List.getElem?_map, List.getElem?_range ht] at hy'
    obtain rfl := Option.some.inj hy'
    set S := (X.map fun z => |doubleVal z.1| + |doubleVal z.2|).sum with hSdef
    have hS0 : 0 ≤ S := List.sum_nonneg (by
      intro v hv
      obtain ⟨z, _, rfl⟩ := List.mem_map.1 hv
      positivity)
    have hSB : S ≤ X.length * (2 * 2 ^ 150) := by
      have := List.sum_le_card_nsmul (X.map fun z => |doubleVal z.1| + |doubleVal z.2|) (2 * 2 ^ 150) (by
        intro v hv
        obtain ⟨z, hzX, rfl⟩ := List.mem_map.1 hv
        obtain ⟨_, _, h1, h2⟩ := hz z hzX
        linarith)
      rw [List.length_map, nsmul_eq_mul] at this
      exact this
    have hS180 : S + 1 ≤ 2 ^ 180 := by
      have h1 : (X.length : ℝ) ≤ 1000 := by
        have : X.length ≤ 1000 := by omega
        exact_mod_cast this
      have h2 : (X.length : ℝ) * (2 * 2 ^ 150) ≤ 1000 * (2 * 2 ^ 150) := mul_le_mul_of_nonneg_right h1 (by positivity)
      have h3 : (1000 : ℝ) * (2 * 2 ^ 150) + 1 ≤ 2 ^ 180 := by norm_num
      linarith
    set X' := X.map fun z => (doubleVal z.1, doubleVal z.2) with hX'
    have hle : ∀ z ∈ X, |doubleVal z.1| + |doubleVal z.2| ≤ S := fun z hzX =>
      List.single_le_sum (by
        intro v hv
        obtain ⟨z, _, rfl⟩ := List.mem_map.1 hv
        positivity) _ (List.mem_map.2 ⟨z, hzX, rfl⟩)
    have hin : ∀ i < 2 * (n / 2 + 1), Ap (parts none X i) (parts 0 X' i) 0 ∧ |parts 0 X' i| ≤ S + 1 := by
      intro i hi
      have hi' : i / 2 < X.length := by omega
      obtain ⟨o1, o2, _, _⟩ := hz _ (List.getElem_mem hi')
      have hs := hle _ (List.getElem_mem hi')
      have a1 := abs_nonneg (doubleVal (X[i / 2]).1)
      have a2 := abs_nonneg (doubleVal (X[i / 2]).2)
      unfold parts
      rw [List.getD_eq_getElem _ _ hi', List.getD_eq_getElem _ _ (by rw [hX', List.length_map]; exact hi')]
      simp only [hX', List.getElem_map]
      split
      · exact ⟨ap_exact o1, by linarith⟩
      · exact ⟨ap_exact o2, by linarith⟩
    obtain ⟨c1, c2, c3⟩ := hL.bwd_cost t ht
    have key := (cost_near h (by linarith) hS180 _ (fun i hi => (hin i hi).1) (fun i hi => (hin i hi).2) _ c1 c2 hD1 c3
      hu1).val
    rw [hL.bwd X' (by rw [hX', List.length_map, hX]) t ht] at key
    exact key

end Proofs.Linear

/-! ## Summing term by term -/

namespace Proofs.Linear
open Model Spec Proofs Proofs.Binary64 Complex

/-- `c 0 x (i 0) + … + c m x (i m)`, from left to right. -/
def comb (i : ℕ → ℕ) (c s : ℕ → ℝ) : ℕ → Lin
  | 0 => .scale (c 0) (s 0) (.input (i 0))
  | m + 1 => .fma (c (m + 1)) (s (m + 1)) (.input (i (m + 1))) (comb i c s m)

theorem comb_exact (i : ℕ → ℕ) (c s : ℕ → ℝ) (x : ℕ → ℝ) (m : ℕ) :
    (comb i c s m).exact x = ∑ j ∈ Finset.range (m + 1), c j * x (i j) := by
  induction m with
  | zero => simp [comb, Lin.exact]
  | succ m ih => rw [Finset.sum_range_succ, ← ih, comb, Lin.exact, Lin.exact]; ring

theorem comb_depth (i : ℕ → ℕ) (c s : ℕ → ℝ) (m : ℕ) : (comb i c s m).depth = m + 1 := by
  induction m with
  | zero => rfl
  | succ m ih => rw [comb, Lin.depth, ih, Lin.depth]; omega

theorem comb_gain (i : ℕ → ℕ) (c s : ℕ → ℝ) (m : ℕ) (hc : ∀ j ≤ m, |c j| ≤ 1) : (comb i c s m).gain = m + 1 := by
  induction m with
  | zero => rw [comb, Lin.gain, Lin.gain, max_eq_left (hc 0 le_rfl)]; simp
  | succ m ih =>
    rw [comb, Lin.gain, Lin.gain, ih fun j hj => hc j (by omega), max_eq_left (hc _ le_rfl)]
    push_cast
    ring

theorem comb_proper {rd : ℝ → ℝ} (h : NearestDouble rd) (i : ℕ → ℕ) (c : ℕ → ℝ) (m N : ℕ) (hc : ∀ j ≤ m, |c j| ≤ 1)
    (hi : ∀ j ≤ m, i j < N) : (comb i c (fun j => rd (c j)) m).Proper N := by
  have st : ∀ j ≤ m, Double (rd (c j)) ∧ |rd (c j) - c j| ≤ max 1 |c j| / 2 ^ 51 := by
    intro j hj
    have hc1 := hc j hj
    have hmax := (hc1.trans (one_le_pow₀ one_le_two)).trans max_large
    obtain ⟨a, ha, h1, h2⟩ := round_ap h hmax
    unfold roundDouble at ha
    rw [if_pos hmax] at ha
    obtain rfl := Option.some.inj ha
    refine ⟨h1, h2.trans ?_⟩
    rw [max_eq_left hc1]
    have hu := u_pos
    have : (1 : ℝ) / 2 ^ 51 = 4 * u := by unfold u; norm_num
    rw [this]
    nlinarith
  have : ∀ k ≤ m, (comb i c (fun j => rd (c j)) k).Proper N := by
    intro k
    induction k with
    | zero => intro _; exact ⟨st 0 (by omega), hi 0 (by omega)⟩
    | succ k ih => intro hk; exact ⟨st _ hk, hi _ hk, ih (by omega)⟩
  exact this m le_rfl

/-- The library that sums every output term by term. -/
noncomputable def direct (rd : ℝ → ℝ) : Library where
  fwd n k :=
    (comb id (fun j => Real.cos (2 * Real.pi * (j * k : ℕ) / n)) (fun j => rd (Real.cos (2 * Real.pi * (j * k : ℕ) / n))) (n - 1),
     comb id (fun j => -Real.sin (2 * Real.pi * (j * k : ℕ) / n)) (fun j => rd (-Real.sin (2 * Real.pi * (j * k : ℕ) / n))) (n - 1))
  bwd n t :=
    let c : ℕ → ℝ := fun j => if j % 2 = 0 then Real.cos (2 * Real.pi * (j / 2 * t : ℕ) / n) else
      if j / 2 ≤ n / 2 then -Real.sin (2 * Real.pi * (j / 2 * t : ℕ) / n) else Real.sin (2 * Real.pi * (j / 2 * t : ℕ) / n)
    comb (fun j => if j / 2 ≤ n / 2 then j else 2 * (n - j / 2) + j % 2) c (fun j => rd (c j)) (2 * n - 1)

theorem sum_pairs (f : ℕ → ℝ) (n : ℕ) :
    ∑ j ∈ Finset.range (2 * n), f j = ∑ k ∈ Finset.range n, (f (2 * k) + f (2 * k + 1)) := by
  induction n with
  | zero => rfl
  | succ n ih =>
    rw [show 2 * (n + 1) = 2 * n + 1 + 1 by ring, Finset.sum_range_succ, Finset.sum_range_succ, ih, Finset.sum_range_succ]
    ring

theorem direct_transforms {rd : ℝ → ℝ} (h : NearestDouble rd) (n : ℕ) [NeZero n] :
    Transforms (direct rd) n (2 * n) (2 * n) := by
  have hn1 : 0 < n := Nat.pos_of_ne_zero (NeZero.ne n)
  have hn1' : (1 : ℝ) ≤ n := by exact_mod_cast hn1
  have hb : ∀ t j : ℕ, |(if j % 2 = 0 then Real.cos (2 * Real.pi * (j / 2 * t : ℕ) / n) else
      if j / 2 ≤ n / 2 then -Real.sin (2 * Real.pi * (j / 2 * t : ℕ) / n) else
        Real.sin (2 * Real.pi * (j / 2 * t : ℕ) / n))| ≤ 1 := by
    intro t j
    split
    · exact Real.abs_cos_le_one _
    · split
      · rw [abs_neg]; exact Real.abs_sin_le_one _
      · exact Real.abs_sin_le_one _
  refine ⟨?_, ?_, ?_, ?_⟩
  · intro x hx k hk
    have hu' := fun j : ℕ => unit_parts n (j * k)
    unfold direct dft
    dsimp only
    rw [comb_exact, comb_exact, Nat.sub_add_cancel hn1, Complex.re_sum, Complex.im_sum]
    constructor
    · refine Finset.sum_congr rfl fun j _ => ?_
      rw [mul_re, intCast_re, intCast_im, (hu' j).2.2.1, id]
      ring
    · refine Finset.sum_congr rfl fun j _ => ?_
      rw [mul_im, intCast_re, intCast_im, (hu' j).2.2.2, id]
      ring
  · intro X hX t ht
    unfold direct
    dsimp only
    rw [comb_exact, Nat.sub_add_cancel (by omega), sum_pairs]
    refine Finset.sum_congr rfl fun k hk => ?_
    have e1 : 2 * k % 2 = 0 := by omega
    have e2 : (2 * k + 1) % 2 = 1 := by omega
    have e3 : 2 * k / 2 = k := by omega
    have e4 : (2 * k + 1) / 2 = k := by omega
    rw [mul_re, (unit_parts n (k * t)).1, (unit_parts n (k * t)).2.1]
    simp only [e1, e2, e3, e4, if_true, one_ne_zero, if_false]
    unfold hermitian parts
    by_cases hk2 : k ≤ n / 2
    · simp only [hk2, if_true, e1, e2, e3, e4, one_ne_zero, if_false]
      ring
    · have e5 : (2 * (n - k) + 0) % 2 = 0 := by omega
      have e6 : (2 * (n - k) + 0) / 2 = n - k := by omega
      have e7 : (2 * (n - k) + 1) % 2 = 1 := by omega
      have e8 : (2 * (n - k) + 1) / 2 = n - k := by omega
      simp only [hk2, if_false, e5, e6, e7, e8, one_ne_zero, if_true]
      ring
  · intro k hk a ha
    rcases ha with rfl | rfl
    · have hc : ∀ j ≤ n - 1, |Real.cos (2 * Real.pi * (j * k : ℕ) / n)| ≤ 1 := fun j _ => Real.abs_cos_le_one _
      refine ⟨comb_proper h id _ (n - 1) n hc fun j hj => by show j < n; omega, ?_, ?_⟩
      · unfold direct; dsimp only; rw [comb_depth]; omega
      · unfold direct; dsimp only; rw [comb_gain _ _ _ _ hc]
        have : ((n - 1 : ℕ) : ℝ) + 1 = n := by rw [← Nat.cast_add_one, Nat.sub_add_cancel hn1]
        rw [this]; linarith
    · have hc : ∀ j ≤ n - 1, |-Real.sin (2 * Real.pi * (j * k : ℕ) / n)| ≤ 1 := fun j _ => by
        rw [abs_neg]; exact Real.abs_sin_le_one _
      refine ⟨comb_proper h id _ (n - 1) n hc fun j hj => by show j < n; omega, ?_, ?_⟩
      · unfold direct; dsimp only; rw [comb_depth]; omega
      · unfold direct; dsimp only; rw [comb_gain _ _ _ _ hc]
        have : ((n - 1 : ℕ) : ℝ) + 1 = n := by rw [← Nat.cast_add_one, Nat.sub_add_cancel hn1]
        rw [this]; linarith
  · intro t ht
    refine ⟨comb_proper h _ _ (2 * n - 1) _ (fun j _ => hb t j) ?_, ?_, ?_⟩
    · intro j hj
      split <;> omega
    · unfold direct; dsimp only; rw [comb_depth]; omega
    · unfold direct; dsimp only; rw [comb_gain _ _ _ _ fun j _ => hb t j]
      have : ((2 * n - 1 : ℕ) : ℝ) + 1 = 2 * n := by
        rw [← Nat.cast_add_one, Nat.sub_add_cancel (by omega)]
        push_cast
        ring
      rw [this]

end Proofs.Linear
