import Mathlib.Tactic.Positivity
import Mathlib.Algebra.Order.BigOperators.Group.List
import Verif.Spec.Rounding
import Verif.Proofs.Fourier

/-!
# Helper lemmas: error analysis of the transforms
-/

set_option linter.unusedSectionVars false
set_option linter.unusedVariables false
set_option linter.unusedSimpArgs false

namespace Proofs.Rounding
open Model Spec Proofs Proofs.Fourier Complex

variable {n : ℕ} [NeZero n]

theorem norm_unit (m : ℤ) : ‖unit n m‖ = 1 := by
  rw [unit_eq]
  exact Circle.norm_coe (ZMod.toCircle (m : ZMod n))

theorem norm_dft_le {x : List ℤ} (hx : PMSeq n x) (k : ℕ) : ‖dft n x k‖ ≤ n := by
  unfold dft
  refine (norm_sum_le _ _).trans ?_
  refine (Finset.sum_le_card_nsmul _ _ 1 fun j hj => ?_).trans (by simp)
  rw [norm_mul, norm_unit, mul_one]
  have hj' : j < x.length := by rw [hx.1]; exact Finset.mem_range.1 hj
  rw [List.getD_eq_getElem _ _ hj']
  rcases hx.2 _ (List.getElem_mem hj') with h | h <;> rw [h] <;> simp

theorem psd_le {x : List ℤ} (hx : PMSeq n x) (k : ℕ) : psd n x k ≤ (n : ℝ) ^ 2 := by
  unfold psd
  rw [normSq_eq_norm_sq]
  exact pow_le_pow_left₀ (norm_nonneg _) (norm_dft_le hx k) 2

section
variable {K : Type} {A : Fl K} {val : K → ℝ} {ok : K → Prop} {B e : ℝ}

/-- `f` is usable and within `d` of `v`. -/
def Near (val : K → ℝ) (ok : K → Prop) (f : K) (v d : ℝ) : Prop := ok f ∧ |val f - v| ≤ d

theorem Near.abs_le {f : K} {v d : ℝ} (h : Near val ok f v d) : |val f| ≤ |v| + d := by
  have := abs_sub_abs_le_abs_sub (val f) v
  have := h.2
  linarith

theorem Near.mono {f : K} {v d d' : ℝ} (h : Near val ok f v d) (hd : d ≤ d') : Near val ok f v d' :=
  ⟨h.1, h.2.trans hd⟩

theorem add_near (h : FloatModel A val ok n B e) (he : 0 ≤ e) {x y : K} {a b c d1 d2 : ℝ} (hx : Near val ok x a d1)
    (hy : Near val ok y b d2) (h1 : |a| + d1 ≤ B) (h2 : |b| + d2 ≤ B) (hc : |a + b| ≤ c) :
    Near val ok (A.add x y) (a + b) (d1 + d2 + e * (c + d1 + d2 + 1)) := by
  obtain ⟨ho, hr⟩ := h.add x y hx.1 hy.1 (hx.abs_le.trans h1) (hy.abs_le.trans h2)
  refine ⟨ho, ?_⟩
  have h3 : |(val x + val y) - (a + b)| ≤ d1 + d2 := by
    rw [show (val x + val y) - (a + b) = (val x - a) + (val y - b) by ring]
    exact (abs_add_le _ _).trans (add_le_add hx.2 hy.2)
  have h4 : |val x + val y| ≤ c + d1 + d2 := by
    have := abs_sub_abs_le_abs_sub (val x + val y) (a + b)
    linarith
  have h5 : e * (|val x + val y| + 1) ≤ e * (c + d1 + d2 + 1) := mul_le_mul_of_nonneg_left (by linarith) he
  rw [show val (A.add x y) - (a + b) = (val (A.add x y) - (val x + val y)) + ((val x + val y) - (a + b)) by ring]
  exact (abs_add_le _ _).trans (by linarith)

theorem sub_near (h : FloatModel A val ok n B e) (he : 0 ≤ e) {x y : K} {a b c d1 d2 : ℝ} (hx : Near val ok x a d1)
    (hy : Near val ok y b d2) (h1 : |a| + d1 ≤ B) (h2 : |b| + d2 ≤ B) (hc : |a - b| ≤ c) :
    Near val ok (A.sub x y) (a - b) (d1 + d2 + e * (c + d1 + d2 + 1)) := by
  obtain ⟨ho, hr⟩ := h.sub x y hx.1 hy.1 (hx.abs_le.trans h1) (hy.abs_le.trans h2)
  refine ⟨ho, ?_⟩
  have h3 : |(val x - val y) - (a - b)| ≤ d1 + d2 := by
    rw [show (val x - val y) - (a - b) = (val x - a) - (val y - b) by ring]
    exact (abs_sub _ _).trans (add_le_add hx.2 hy.2)
  have h4 : |val x - val y| ≤ c + d1 + d2 := by
    have := abs_sub_abs_le_abs_sub (val x - val y) (a - b)
    linarith
  have h5 : e * (|val x - val y| + 1) ≤ e * (c + d1 + d2 + 1) := mul_le_mul_of_nonneg_left (by linarith) he
  rw [show val (A.sub x y) - (a - b) = (val (A.sub x y) - (val x - val y)) + ((val x - val y) - (a - b)) by ring]
  exact (abs_add_le _ _).trans (by linarith)

/-- The assumptions on the size of the error. -/
structure Small (n : ℕ) (B e : ℝ) : Prop where
  pos : 0 ≤ e
  err : e * ((n : ℝ) + 1) ^ 2 ≤ 1 / 1000
  big : 16 * ((n : ℝ) + 1) ^ 3 ≤ B

theorem n_one : (1 : ℝ) ≤ n := by exact_mod_cast Nat.pos_of_ne_zero (NeZero.ne n)

theorem Small.sq (h : Small n B e) : (4 : ℝ) ≤ ((n : ℝ) + 1) ^ 2 := by
  have := n_one (n := n); nlinarith

theorem Small.e_le (h : Small n B e) : e ≤ 1 / 4000 := by
  have h1 := h.sq
  have h2 := h.err
  have h3 := h.pos
  nlinarith

theorem Small.cube (h : Small n B e) : 32 * ((n : ℝ) + 1) ^ 2 ≤ B := by
  refine le_trans ?_ h.big
  have := n_one (n := n)
  have : (0 : ℝ) ≤ ((n : ℝ) + 1) ^ 2 := by positivity
  nlinarith

/-- One unit of error. -/
noncomputable def U (n : ℕ) (e : ℝ) : ℝ := e * ((n : ℝ) + 1) ^ 2

theorem mul_near (h : FloatModel A val ok n B e) (hs : Small n B e) {x y : K} {a b : ℝ} (hx : Near val ok x a e)
    (hy : Near val ok y b e) (ha : |a| ≤ n) (hb : |b| ≤ n) : Near val ok (A.mul x y) (a * b) (2 * U n e) := by
  have h1 := n_one (n := n)
  have he := hs.pos
  have he2 := hs.e_le
  have hx1 : |val x| ≤ n + e := hx.abs_le.trans (by linarith)
  have hy1 : |val y| ≤ n + e := hy.abs_le.trans (by linarith)
  have hp : |val x * val y| ≤ ((n : ℝ) + e) ^ 2 := by
    rw [abs_mul, sq]
    exact mul_le_mul hx1 hy1 (abs_nonneg _) (by linarith)
  have hp2 : ((n : ℝ) + e) ^ 2 + 1 ≤ ((n : ℝ) + 1) ^ 2 := by nlinarith
  obtain ⟨ho, hr⟩ := h.mul x y hx.1 hy.1 (hp.trans (by have := hs.cube; nlinarith [hs.sq]))
  refine ⟨ho, ?_⟩
  have h3 : |val x * val y - a * b| ≤ 2 * n * e + e ^ 2 := by
    rw [show val x * val y - a * b = (val x - a) * b + a * (val y - b) + (val x - a) * (val y - b) by ring]
    refine (abs_add_le _ _).trans ?_
    have := abs_add_le ((val x - a) * b) (a * (val y - b))
    rw [abs_mul, abs_mul] at this
    rw [abs_mul]
    have k1 : |val x - a| * |b| ≤ e * n := mul_le_mul hx.2 hb (abs_nonneg _) he
    have k2 : |a| * |val y - b| ≤ n * e := mul_le_mul ha hy.2 (abs_nonneg _) (by linarith)
    have k3 : |val x - a| * |val y - b| ≤ e * e := mul_le_mul hx.2 hy.2 (abs_nonneg _) he
    nlinarith
  have h4 : e * (|val x * val y| + 1) ≤ e * ((n : ℝ) + 1) ^ 2 := mul_le_mul_of_nonneg_left (by linarith) he
  have h5 : 2 * n * e + e ^ 2 ≤ e * ((n : ℝ) + 1) ^ 2 := by
    nlinarith [mul_nonneg he (show (0 : ℝ) ≤ n ^ 2 + 1 - e by nlinarith)]
  rw [show val (A.mul x y) - a * b = (val (A.mul x y) - val x * val y) + (val x * val y - a * b) by ring]
  unfold U
  exact (abs_add_le _ _).trans (by linarith)

theorem U_nonneg (hs : Small n B e) : 0 ≤ U n e := mul_nonneg hs.pos (by positivity)
theorem U_le (hs : Small n B e) : U n e ≤ 1 / 1000 := hs.err

/-- Sum or difference of two products. -/
theorem sum_bound (hs : Small n B e) {c : ℝ} (hc : c ≤ 2 * ((n : ℝ) + 1) ^ 2) :
    2 * U n e + 2 * U n e + e * (c + 2 * U n e + 2 * U n e + 1) ≤ 7 * U n e := by
  have h1 := U_le hs
  have h2 := hs.sq
  have : e * (c + 2 * U n e + 2 * U n e + 1) ≤ e * (3 * ((n : ℝ) + 1) ^ 2) :=
    mul_le_mul_of_nonneg_left (by linarith) hs.pos
  have e2 : e * (3 * ((n : ℝ) + 1) ^ 2) = 3 * U n e := by unfold U; ring
  linarith

theorem prod_abs (hs : Small n B e) {a b : ℝ} (ha : |a| ≤ n) (hb : |b| ≤ n) : |a * b| ≤ ((n : ℝ) + 1) ^ 2 := by
  rw [abs_mul]
  have h1 := n_one (n := n)
  refine (mul_le_mul ha hb (abs_nonneg _) (by linarith)).trans ?_
  nlinarith

theorem prod_fits (hs : Small n B e) {a b : ℝ} (ha : |a| ≤ n) (hb : |b| ≤ n) : |a * b| + 2 * U n e ≤ B := by
  have := prod_abs hs ha hb
  have := U_le hs
  have := hs.cube
  have := hs.sq
  linarith

theorem addmul_near (h : FloatModel A val ok n B e) (hs : Small n B e) {x y z w : K} {a b c d : ℝ}
    (hx : Near val ok x a e) (hy : Near val ok y b e) (hz : Near val ok z c e) (hw : Near val ok w d e)
    (ha : |a| ≤ n) (hb : |b| ≤ n) (hc : |c| ≤ n) (hd : |d| ≤ n) :
    Near val ok (A.add (A.mul x y) (A.mul z w)) (a * b + c * d) (7 * U n e) := by
  refine (add_near h hs.pos (mul_near h hs hx hy ha hb) (mul_near h hs hz hw hc hd) (prod_fits hs ha hb)
    (prod_fits hs hc hd) ((abs_add_le _ _).trans (add_le_add (prod_abs hs ha hb) (prod_abs hs hc hd)))).mono ?_
  exact sum_bound hs (by linarith)

theorem submul_near (h : FloatModel A val ok n B e) (hs : Small n B e) {x y z w : K} {a b c d : ℝ}
    (hx : Near val ok x a e) (hy : Near val ok y b e) (hz : Near val ok z c e) (hw : Near val ok w d e)
    (ha : |a| ≤ n) (hb : |b| ≤ n) (hc : |c| ≤ n) (hd : |d| ≤ n) :
    Near val ok (A.sub (A.mul x y) (A.mul z w)) (a * b - c * d) (7 * U n e) := by
  refine (sub_near h hs.pos (mul_near h hs hx hy ha hb) (mul_near h hs hz hw hc hd) (prod_fits hs ha hb)
    (prod_fits hs hc hd) ((abs_sub _ _).trans (add_le_add (prod_abs hs ha hb) (prod_abs hs hc hd)))).mono ?_
  exact sum_bound hs (by linarith)

theorem neg_near (h : FloatModel A val ok n B e) {x : K} {a d : ℝ} (hx : Near val ok x a d) :
    Near val ok (A.neg x) (-a) d := by
  obtain ⟨h1, h2⟩ := h.neg x hx.1
  refine ⟨h1, ?_⟩
  rw [h2, show -val x - -a = -(val x - a) by ring, abs_neg]
  exact hx.2

/-! ## The transforms -/

theorem dft_length (h : FloatModel A val ok n B e) {x : List ℤ} (hx : PMSeq n x) :
    (dftSequence A x).length = n / 2 + 1 := (h.r2c x hx).1

theorem dft_near (h : FloatModel A val ok n B e) {x : List ℤ} (hx : PMSeq n x) {k : ℕ} (hk : k ≤ n / 2) :
    ∃ z, (dftSequence A x)[k]? = some z ∧ Near val ok z.1 (dft n x k).re e ∧ Near val ok z.2 (dft n x k).im e := by
  have hl := dft_length h hx
  obtain ⟨z, hz⟩ : ∃ z, (dftSequence A x)[k]? = some z :=
    ⟨_, List.getElem?_eq_getElem (by rw [hl]; omega)⟩
  obtain ⟨h1, h2, h3, h4⟩ := (h.r2c x hx).2 k hk z hz
  exact ⟨z, hz, ⟨h1, h3⟩, ⟨h2, h4⟩⟩

theorem re_le {x : List ℤ} (hx : PMSeq n x) (k : ℕ) : |(dft n x k).re| ≤ n :=
  (abs_re_le_norm _).trans (norm_dft_le hx k)

theorem im_le {x : List ℤ} (hx : PMSeq n x) (k : ℕ) : |(dft n x k).im| ≤ n :=
  (abs_im_le_norm _).trans (norm_dft_le hx k)

theorem psd_near (h : FloatModel A val ok n B e) (hs : Small n B e) {x : List ℤ} (hx : PMSeq n x) {k : ℕ}
    (hk : k ≤ n / 2) :
    ∃ p, ((dftSequence A x).map A.normSqr)[k]? = some p ∧ Near val ok p (psd n x k) (7 * U n e) := by
  obtain ⟨z, hz, h1, h2⟩ := dft_near h hx hk
  refine ⟨A.normSqr z, by rw [List.getElem?_map, hz]; rfl, ?_⟩
  have := addmul_near h hs h1 h1 h2 h2 (re_le hx k) (re_le hx k) (im_le hx k) (im_le hx k)
  unfold psd
  rw [normSq_apply]
  exact this

/-- The cross spectrum, as computed by both cross-spectrum functions. -/
theorem cross_near (h : FloatModel A val ok n B e) (hs : Small n B e) {x y : List ℤ} (hx : PMSeq n x) (hy : PMSeq n y)
    {k : ℕ} (hk : k ≤ n / 2) :
    ∃ z w, (dftSequence A x)[k]? = some z ∧ (dftSequence A y)[k]? = some w ∧
      Near val ok (A.cmul z (A.conj w)).1 (dft n x k * (starRingEnd ℂ) (dft n y k)).re (7 * U n e) ∧
      Near val ok (A.cmul z (A.conj w)).2 (dft n x k * (starRingEnd ℂ) (dft n y k)).im (7 * U n e) := by
  obtain ⟨z, hz, h1, h2⟩ := dft_near h hx hk
  obtain ⟨w, hw, h3, h4⟩ := dft_near h hy hk
  have h5 := neg_near h h4
  have hn : |-(dft n y k).im| ≤ n := by rw [abs_neg]; exact im_le hy k
  refine ⟨z, w, hz, hw, ?_, ?_⟩
  · have := submul_near h hs h1 h3 h2 h5 (re_le hx k) (re_le hy k) (im_le hx k) hn
    rw [mul_re, conj_re, conj_im]
    exact this
  · have := addmul_near h hs h1 h5 h2 h3 (re_le hx k) hn (im_le hx k) (re_le hy k)
    rw [mul_im, conj_re, conj_im]
    exact this

theorem inverse_near (h : FloatModel A val ok n B e) (hs : Small n B e) (G : ℕ → ℂ)
    (hG : ∀ k, k < n → n / 2 < k → G k = (starRingEnd ℂ) (G (n - k))) {X : List (K × K)}
    (hX : ∀ k ≤ n / 2, ∃ z, X[k]? = some z ∧ Near val ok z.1 (G k).re (7 * U n e) ∧ Near val ok z.2 (G k).im (7 * U n e))
    (hb : ∀ k ≤ n / 2, |(G k).re| ≤ 2 * ((n : ℝ) + 1) ^ 2 ∧ |(G k).im| ≤ 2 * ((n : ℝ) + 1) ^ 2) {t : ℕ} (ht : t < n)
    (hv : |((∑ k ∈ Finset.range n, G k * unit n (k * t : ℕ)) / n).re| ≤ n) :
    Near val ok ((inverseDft A X n).getD t (A.ofInt 0)) ((∑ k ∈ Finset.range n, G k * unit n (k * t : ℕ)) / n).re
      (42 * U n e) := by
  have h1 := n_one (n := n)
  have hU := U_le hs
  have hU0 := U_nonneg hs
  have hsq := hs.sq
  set N2 : ℝ := ((n : ℝ) + 1) ^ 2 with hN2
  set Y := (List.range (n / 2 + 1)).map fun i => X.getD i (A.ofInt 0, A.ofInt 0) with hY
  have hYl : Y.length = n / 2 + 1 := by simp [hY]
  have hYk : ∀ k ≤ n / 2, Y[k]? = X[k]? := by
    intro k hk
    obtain ⟨z, hz, -⟩ := hX k hk
    rw [hY, List.getElem?_map, List.getElem?_range (by omega), hz, Option.map_some, List.getD_eq_getElem?_getD, hz]
    rfl
  have hYz : ∀ z ∈ Y, ok z.1 ∧ ok z.2 ∧ |val z.1| ≤ 2 * N2 + 1 ∧ |val z.2| ≤ 2 * N2 + 1 := by
    intro z hz
    obtain ⟨k, hk, rfl⟩ := List.mem_iff_getElem.1 hz
    have hk' : k ≤ n / 2 := by omega
    obtain ⟨z, hz, n1, n2⟩ := hX k hk'
    have : Y[k] = z := by
      have := hYk k hk'
      rw [List.getElem?_eq_getElem hk, hz] at this
      exact Option.some.inj this
    rw [this]
    have k1 := n1.abs_le
    have k2 := n2.abs_le
    have := hb k hk'
    exact ⟨n1.1, n2.1, by linarith, by linarith⟩
  have hcube := hs.cube
  obtain ⟨y, hy⟩ : ∃ y, (A.c2r n Y)[t]? = some y :=
    ⟨_, List.getElem?_eq_getElem (by rw [h.c2r_length]; exact ht)⟩
  obtain ⟨oky, hyv⟩ := h.c2r Y hYl (fun z hz => by
    obtain ⟨a, b, c, d⟩ := hYz z hz
    exact ⟨a, b, by linarith, by linarith⟩) t ht y hy
  -- the sum of magnitudes
  have hsum : (Y.map fun z => |val z.1| + |val z.2|).sum + 1 ≤ 6 * N2 * (n + 1) := by
    have := List.sum_le_card_nsmul (Y.map fun z => |val z.1| + |val z.2|) (5 * N2) (by
      intro w hw
      obtain ⟨z, hz, rfl⟩ := List.mem_map.1 hw
      obtain ⟨-, -, c, d⟩ := hYz z hz
      linarith)
    rw [List.length_map, hYl, nsmul_eq_mul] at this
    have h2 : ((n / 2 + 1 : ℕ) : ℝ) * (5 * N2) ≤ (n + 1) * (5 * N2) := by
      refine mul_le_mul_of_nonneg_right ?_ (by linarith)
      have : n / 2 + 1 ≤ n + 1 := by omega
      exact_mod_cast this
    nlinarith
  -- the spectrum
  have hspec : ∀ k ∈ Finset.range n,
      |(hermitian n (Y.map fun z => (val z.1, val z.2)) k * unit n (k * t : ℕ)).re - (G k * unit n (k * t : ℕ)).re| ≤
        14 * U n e := by
    intro k hk
    have hk := Finset.mem_range.1 hk
    have hg : ∀ k ≤ n / 2, ∃ z : K × K, (Y.map fun z => (val z.1, val z.2)).getD k (0, 0) = (val z.1, val z.2) ∧
        |val z.1 - (G k).re| ≤ 7 * U n e ∧ |val z.2 - (G k).im| ≤ 7 * U n e := by
      intro k hk
      obtain ⟨z, hz, n1, n2⟩ := hX k hk
      refine ⟨z, ?_, n1.2, n2.2⟩
      rw [List.getD_eq_getElem?_getD, List.getElem?_map, hYk k hk, hz]; rfl
    have hn : ‖hermitian n (Y.map fun z => (val z.1, val z.2)) k - G k‖ ≤ 14 * U n e := by
      refine (norm_le_abs_re_add_abs_im _).trans ?_
      unfold hermitian
      split
      · rename_i hk2
        obtain ⟨z, e1, e2, e3⟩ := hg k hk2
        rw [e1]
        simp only [sub_re, sub_im]
        linarith
      · rename_i hk2
        obtain ⟨z, e1, e2, e3⟩ := hg (n - k) (by omega)
        rw [e1, hG k hk (by omega)]
        simp only [sub_re, sub_im, conj_re, conj_im]
        rw [show -val z.2 - -(G (n - k)).im = -(val z.2 - (G (n - k)).im) by ring, abs_neg]
        linarith
    rw [← sub_re, ← sub_mul]
    refine (abs_re_le_norm _).trans ?_
    rw [norm_mul, norm_unit, mul_one]
    exact hn
  have hdiff : |val y - (∑ k ∈ Finset.range n, G k * unit n (k * t : ℕ)).re| ≤ 20 * U n e * (n + 1) := by
    rw [Complex.re_sum]
    have h2 : |(∑ k ∈ Finset.range n, (hermitian n (Y.map fun z => (val z.1, val z.2)) k * unit n (k * t : ℕ)).re) -
        ∑ k ∈ Finset.range n, (G k * unit n (k * t : ℕ)).re| ≤ n * (14 * U n e) := by
      rw [← Finset.sum_sub_distrib]
      refine (Finset.abs_sum_le_sum_abs _ _).trans ?_
      refine (Finset.sum_le_card_nsmul _ _ _ hspec).trans ?_
      rw [Finset.card_range, nsmul_eq_mul]
    have h3 := hyv.trans (mul_le_mul_of_nonneg_left hsum hs.pos)
    have h4 : e * (6 * N2 * (n + 1)) = 6 * U n e * (n + 1) := by unfold U; ring
    rw [h4] at h3
    have h5 := abs_sub_le (val y) (∑ k ∈ Finset.range n,
      (hermitian n (Y.map fun z => (val z.1, val z.2)) k * unit n (k * t : ℕ)).re)
      (∑ k ∈ Finset.range n, (G k * unit n (k * t : ℕ)).re)
    nlinarith
  set S := (∑ k ∈ Finset.range n, G k * unit n (k * t : ℕ)) with hS
  have hSn : (S / n).re = S.re / n := by
    rw [← Complex.ofReal_natCast, Complex.div_ofReal_re]
  rw [hSn] at hv ⊢
  have npos : (0 : ℝ) < n := by linarith
  have hd2 : |val y / n - S.re / n| ≤ 40 * U n e := by
    rw [← sub_div, abs_div, abs_of_pos npos, div_le_iff₀ npos]
    refine hdiff.trans ?_
    nlinarith
  obtain ⟨oki, hi⟩ := h.ofInt n (by rw [abs_of_nonneg (by positivity)]; linarith [show (0:ℤ) ≤ n by positivity])
  have hi : val (A.ofInt n) = n := by rw [hi]; simp
  have hyB : |val y| ≤ B := by
    have h6 : |S.re| ≤ n * n := by
      rw [abs_div, abs_of_pos npos, div_le_iff₀ npos] at hv
      exact hv
    have := abs_sub_abs_le_abs_sub (val y) S.re
    have h7 : 20 * U n e * (n + 1) ≤ n + 1 := by nlinarith
    have h8 : (n : ℝ) * n + (n + 1) ≤ N2 := by rw [hN2]; nlinarith
    nlinarith
  obtain ⟨okd, hd⟩ := h.div y (A.ofInt n) oky oki hyB (by rw [hi, abs_of_pos npos]; exact h1)
  rw [hi] at hd
  have hres : (inverseDft A X n).getD t (A.ofInt 0) = A.div y (A.ofInt n) := by
    unfold inverseDft
    rw [List.getD_eq_getElem?_getD, List.getElem?_map, hy]
    rfl
  rw [hres]
  refine ⟨okd, ?_⟩
  have h9 : |val y / n| ≤ n + 1 := by
    have := abs_sub_abs_le_abs_sub (val y / n) (S.re / n)
    linarith
  have h10 : e * (|val y / n| + 1) ≤ e * N2 := mul_le_mul_of_nonneg_left (by rw [hN2]; nlinarith) hs.pos
  have h11 : e * N2 = U n e := rfl
  have := abs_sub_le (val (A.div y (A.ofInt n))) (val y / n) (S.re / n)
  linarith

theorem getElem_zip_conj {x y : List ℤ} {k : ℕ} {z w : K × K} (hz : (dftSequence A x)[k]? = some z)
    (hw : (dftSequence A y)[k]? = some w) :
    (seqMultiplyPointwiseComplex A (dftSequence A x) ((dftSequence A y).map A.conj))[k]? =
      some (A.cmul z (A.conj w)) := by
  unfold seqMultiplyPointwiseComplex
  rw [List.getElem?_zipWith, hz, List.getElem?_map, hw]
  rfl

theorem cast_abs_le {z : ℤ} {m : ℕ} (h : |z| ≤ m) : |((z : ℤ) : ℝ)| ≤ m := by
  rw [← Int.cast_abs]
  exact_mod_cast h

theorem auto_near (h : FloatModel A val ok n B e) (hs : Small n B e) {x : List ℤ} (hx : PMSeq n x) {t : ℕ} (ht : t < n) :
    Near val ok ((inverseDft A (((dftSequence A x).map A.normSqr).map fun e => (e, A.ofInt 0)) n).getD t (A.ofInt 0))
      (exactAuto n x t).re (42 * U n e) := by
  have h1 := n_one (n := n)
  have hU0 := U_nonneg hs
  refine inverse_near h hs (fun k => (psd n x k : ℂ)) ?_ ?_ ?_ ht ?_
  · intro k hk _
    rw [conj_ofReal]
    simp only [psd]
    rw [dft_hermitian x hk, normSq_conj]
  · intro k hk
    obtain ⟨p, hp, hn⟩ := psd_near h hs hx hk
    refine ⟨(p, A.ofInt 0), by rw [List.getElem?_map, hp]; rfl, by simpa using hn, ?_⟩
    obtain ⟨a, b⟩ := h.ofInt 0 (by simp)
    refine ⟨a, ?_⟩
    rw [b]
    simp
    linarith
  · intro k hk
    have := psd_le hx k
    have h2 := psd_nonneg (n := n) x k
    simp only [ofReal_re, ofReal_im, abs_zero]
    rw [abs_of_nonneg h2]
    constructor
    · nlinarith
    · positivity
  · change |(exactAuto n x t).re| ≤ n
    rw [exactAuto_eq, ← ccf_self, intCast_re]
    exact cast_abs_le (ccf_abs_le hx hx _)

theorem crossc_near (h : FloatModel A val ok n B e) (hs : Small n B e) {x y : List ℤ} (hx : PMSeq n x) (hy : PMSeq n y)
    {t : ℕ} (ht : t < n) :
    Near val ok ((inverseDft A (seqMultiplyPointwiseComplex A (dftSequence A x) ((dftSequence A y).map A.conj)) n).getD t
      (A.ofInt 0)) (exactCross n x y t).re (42 * U n e) := by
  have h1 := n_one (n := n)
  refine inverse_near h hs (fun k => dft n x k * (starRingEnd ℂ) (dft n y k)) ?_ ?_ ?_ ht ?_
  · intro k hk _
    rw [dft_hermitian x hk, dft_hermitian y hk]; simp
  · intro k hk
    obtain ⟨z, w, hz, hw, n1, n2⟩ := cross_near h hs hx hy hk
    exact ⟨_, getElem_zip_conj hz hw, n1, n2⟩
  · intro k hk
    have hb : ‖dft n x k * (starRingEnd ℂ) (dft n y k)‖ ≤ 2 * ((n : ℝ) + 1) ^ 2 := by
      rw [norm_mul, RCLike.norm_conj]
      have := mul_le_mul (norm_dft_le hx k) (norm_dft_le hy k) (norm_nonneg _) (by linarith)
      nlinarith
    exact ⟨(abs_re_le_norm _).trans hb, (abs_im_le_norm _).trans hb⟩
  · change |(exactCross n x y t).re| ≤ n
    rw [exactCross_eq, intCast_re]
    exact cast_abs_le (ccf_abs_le hx hy _)

theorem two_n_le (hs : Small n B e) : 2 * (n : ℝ) ≤ B := by
  have := hs.cube; have := n_one (n := n); nlinarith

theorem round_eq (h : FloatModel A val ok n B e) {f : K} {k : ℤ} (hf : ok f) (hb : |val f| ≤ B) (hd : |val f - k| < 1 / 2) :
    A.round f = k := by
  have h1 := h.round f hf hb
  have h2 : |((A.round f - k : ℤ) : ℝ)| < 1 := by
    push_cast
    rw [abs_lt]
    obtain ⟨a1, a2⟩ := abs_le.1 h1
    obtain ⟨a3, a4⟩ := abs_lt.1 hd
    constructor <;> linarith
  have h3 : |A.round f - k| < 1 := by exact_mod_cast h2
  rw [abs_lt] at h3
  omega

theorem rounds (h : FloatModel A val ok n B e) (hs : Small n B e) {f : K} (hf : ok f) : RoundsWell A val n f := by
  intro k hk hd
  refine round_eq h hf ?_ hd
  have : |((k : ℤ) : ℝ)| ≤ ((2 * n : ℕ) : ℝ) := cast_abs_le (by push_cast; exact hk)
  push_cast at this
  have h2 := two_n_le hs
  have h3 := n_one (n := n)
  have h4 := hs.cube
  have h5 := abs_sub_abs_le_abs_sub (val f) k
  nlinarith

theorem accurate (h : FloatModel A val ok n B e) (hs : Small n B e) : Accurate A val n where
  length X := by unfold inverseDft; rw [List.length_map, h.c2r_length]
  auto x hx t ht := by
    have hn := auto_near h hs hx ht
    have := U_le hs
    refine ⟨lt_of_le_of_lt hn.2 (by linarith), rounds h hs hn.1⟩
  cross x y hx hy t ht := by
    have n1 := crossc_near h hs hx hy ht
    have n2 := crossc_near h hs hy hx ht
    have hU := U_le hs
    have h1 := n_one (n := n)
    have c1 : |(exactCross n x y t).re| ≤ n := by
      rw [exactCross_eq, intCast_re]; exact cast_abs_le (ccf_abs_le hx hy _)
    have c2 : |(exactCross n y x t).re| ≤ n := by
      rw [exactCross_eq, intCast_re]; exact cast_abs_le (ccf_abs_le hy hx _)
    have hB := two_n_le hs
    have hn := sub_near h hs.pos n1 n2 (by linarith) (by linarith)
      ((abs_sub _ _).trans (add_le_add c1 c2))
    refine ⟨lt_of_le_of_lt hn.2 ?_, rounds h hs hn.1⟩
    have h5 : e * (n + n + 42 * U n e + 42 * U n e + 1) ≤ e * (2 * ((n : ℝ) + 1) ^ 2) :=
      mul_le_mul_of_nonneg_left (by nlinarith) hs.pos
    have h6 : e * (2 * ((n : ℝ) + 1) ^ 2) = 2 * U n e := by unfold U; ring
    linarith

end

end Proofs.Rounding
