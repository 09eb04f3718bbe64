import Verif.Spec.FastTransform
import Verif.Proofs.Linear

/-!
# Helper lemmas: the fast transform computes the transform
-/

set_option linter.unusedSectionVars false
set_option linter.unusedVariables false
set_option linter.unusedSimpArgs false

namespace Proofs.FastTransform
open Model Spec Proofs Proofs.Fourier Proofs.Binary64 Complex

/-! ## Values -/

/-- The complex number meant by a pair. -/
noncomputable def val (y : ℕ → ℝ) (z : Lin × Lin) : ℂ := ⟨z.1.exact y, z.2.exact y⟩

theorem csum_val (y : ℕ → ℝ) (t : ℕ → Lin × Lin) (m : ℕ) : val y (csum t m) = ∑ r ∈ Finset.range (m + 1), val y (t r) := by
  induction m with
  | zero => simp [csum]
  | succ m ih =>
    rw [Finset.sum_range_succ, ← ih]
    apply Complex.ext <;> simp [csum, val, Lin.exact]

theorem twist_val (rd : ℝ → ℝ) (y : ℕ → ℝ) (n : ℕ) (m : ℤ) (z : Lin × Lin) :
    val y (twist rd (turnAngle n m) z) = unit n m * val y z := by
  have e : unit n m = ⟨Real.cos (turnAngle n m), Real.sin (turnAngle n m)⟩ := by
    unfold unit turnAngle
    rw [show (2 * Real.pi * I * (m : ℂ) / n : ℂ) = ((2 * Real.pi * m / n : ℝ) : ℂ) * I by push_cast; ring]
    apply Complex.ext
    · rw [Complex.exp_ofReal_mul_I_re]
    · rw [Complex.exp_ofReal_mul_I_im]
  rw [e]
  apply Complex.ext <;> simp [twist, val, Lin.exact]

theorem unit_add (n : ℕ) (a b : ℤ) : unit n (a + b) = unit n a * unit n b := by
  unfold unit
  rw [← Complex.exp_add]
  congr 1
  push_cast
  ring

theorem unit_mul_left (p m : ℕ) (hp : p ≠ 0) (a : ℤ) : unit (p * m) (p * a) = unit m a := by
  unfold unit
  have hpc : (p : ℂ) ≠ 0 := by exact_mod_cast hp
  congr 1
  push_cast
  rw [show (2 * Real.pi * I * (p * a) : ℂ) = p * (2 * Real.pi * I * a) by ring, mul_div_mul_left _ _ hpc]

theorem unit_period (m : ℕ) (hm : m ≠ 0) (a b : ℤ) : unit m (a + m * b) = unit m a := by
  have : NeZero m := ⟨hm⟩
  rw [unit_eq, unit_eq]
  congr 1
  push_cast
  simp

theorem sum_split (p m : ℕ) (hp : p ≠ 0) (f : ℕ → ℂ) :
    ∑ j ∈ Finset.range (p * m), f j = ∑ r ∈ Finset.range p, ∑ q ∈ Finset.range m, f (q * p + r) := by
  rw [Finset.sum_comm]
  induction m with
  | zero => simp
  | succ m ih =>
    rw [Finset.sum_range_succ, ← ih, Nat.mul_succ, Finset.sum_range_add]
    congr 1
    refine Finset.sum_congr rfl fun r _ => ?_
    rw [Nat.mul_comm]

theorem fast_val (rd : ℝ → ℝ) (sg : ℤ) (y : ℕ → ℝ) : ∀ (fs : List ℕ), (∀ p ∈ fs, p ≠ 0) → ∀ (x : ℕ → Lin × Lin) (k : ℕ),
    val y (fast rd sg fs x k) = ∑ j ∈ Finset.range fs.prod, val y (x j) * unit fs.prod (sg * (j * k : ℕ))
  | [], _, x, k => by
      simp [fast, unit]
  | p :: fs, h, x, k => by
      have hp : p ≠ 0 := h p List.mem_cons_self
      have hfs : ∀ q ∈ fs, q ≠ 0 := fun q hq => h q (List.mem_cons_of_mem _ hq)
      have hm : fs.prod ≠ 0 := List.prod_ne_zero (fun h0 => hfs 0 h0 rfl)
      rw [fast, csum_val, List.prod_cons, sum_split p fs.prod hp, Nat.sub_add_cancel (Nat.pos_of_ne_zero hp)]
      refine Finset.sum_congr rfl fun r _ => ?_
      rw [twist_val, fast_val rd sg y fs hfs, Finset.mul_sum]
      refine Finset.sum_congr rfl fun q _ => ?_
      have e1 : (sg * ((q * p + r) * k : ℕ) : ℤ) = sg * (r * k : ℕ) + p * (sg * (q * k : ℕ)) := by push_cast; ring
      have e2 : (sg * (q * k : ℕ) : ℤ) = sg * (q * (k % fs.prod) : ℕ) + fs.prod * (sg * q * (k / fs.prod : ℕ)) := by
        have := Nat.div_add_mod k fs.prod
        have h2 : (k : ℤ) = fs.prod * (k / fs.prod : ℕ) + (k % fs.prod : ℕ) := by exact_mod_cast this.symm
        push_cast at h2 ⊢
        linear_combination sg * q * h2
      rw [e1, unit_add, unit_mul_left p fs.prod hp, e2, unit_period _ hm]
      ring

/-! ## Costs -/

/-- The largest depth and gain, and the inputs that are read. -/
structure Cost (N D : ℕ) (G : ℝ) (z : Lin × Lin) : Prop where
  p1 : z.1.Proper N
  p2 : z.2.Proper N
  d1 : z.1.depth ≤ D
  d2 : z.2.depth ≤ D
  g1 : z.1.gain ≤ G
  g2 : z.2.gain ≤ G

theorem csum_cost {N D : ℕ} {G : ℝ} {t : ℕ → Lin × Lin} (m : ℕ) (h : ∀ r ≤ m, Cost N D G (t r)) :
    Cost N (D + m) ((m + 1) * G) (csum t m) := by
  induction m with
  | zero => simpa [csum] using h 0 le_rfl
  | succ m ih =>
    have a := ih fun r hr => h r (by omega)
    have b := h (m + 1) le_rfl
    refine ⟨⟨a.p1, b.p1⟩, ⟨a.p2, b.p2⟩, ?_, ?_, ?_, ?_⟩
    · have := a.d1; have := b.d1
      simp only [csum, Lin.depth]; omega
    · have := a.d2; have := b.d2
      simp only [csum, Lin.depth]; omega
    · have := a.g1; have := b.g1
      simp only [csum, Lin.gain]; push_cast; linarith
    · have := a.g2; have := b.g2
      simp only [csum, Lin.gain]; push_cast; linarith

theorem stored {rd : ℝ → ℝ} (h : NearestDouble rd) {c : ℝ} (hc : |c| ≤ 1) :
    Double (rd c) ∧ |rd c - c| ≤ max 1 |c| / 2 ^ 51 := by
  have hmax := (hc.trans (one_le_pow₀ one_le_two)).trans max_large
  obtain ⟨a, ha, h1, h2⟩ := round_ap h hmax
  unfold roundDouble at ha
  rw [if_pos hmax] at ha
  obtain rfl := Option.some.inj ha
  refine ⟨h1, h2.trans ?_⟩
  rw [max_eq_left hc]
  have hu := u_pos
  have e : (1 : ℝ) / 2 ^ 51 = u * 4 := by unfold u; ring
  rw [e]
  exact mul_le_mul_of_nonneg_left (by linarith) hu.le

theorem twist_cost {rd : ℝ → ℝ} (h : NearestDouble rd) {N D : ℕ} {G : ℝ} {z : Lin × Lin} (hz : Cost N D G z) (θ : ℝ) :
    Cost N (D + 2) (2 * G) (twist rd θ z) := by
  have hc := Real.abs_cos_le_one θ
  have hs := Real.abs_sin_le_one θ
  have sc := stored h hc
  have ss := stored h hs
  have := hz.d1; have := hz.d2; have := hz.g1; have := hz.g2
  refine ⟨⟨⟨sc, hz.p1⟩, ⟨ss, hz.p2⟩⟩, ⟨⟨sc, hz.p2⟩, ⟨ss, hz.p1⟩⟩, ?_, ?_, ?_, ?_⟩
  · simp only [twist, Lin.depth]; omega
  · simp only [twist, Lin.depth]; omega
  · simp only [twist, Lin.gain, max_eq_left hc, max_eq_left hs]; linarith
  · simp only [twist, Lin.gain, max_eq_left hc, max_eq_left hs]; linarith

/-- The number of operations on a path, and the growth. -/
def steps (fs : List ℕ) : ℕ := (fs.map (· + 1)).sum

theorem fast_cost {rd : ℝ → ℝ} (h : NearestDouble rd) (sg : ℤ) {N D : ℕ} {G : ℝ} : ∀ (fs : List ℕ), (∀ p ∈ fs, p ≠ 0) →
    ∀ (x : ℕ → Lin × Lin), (∀ j < fs.prod, Cost N D G (x j)) → ∀ k,
      Cost N (D + steps fs) (2 ^ fs.length * fs.prod * G) (fast rd sg fs x k)
  | [], _, x, hx, k => by
      simpa [fast, steps] using hx 0 (by simp)
  | p :: fs, h0, x, hx, k => by
      have hp : p ≠ 0 := h0 p List.mem_cons_self
      have ih := fun r (hr : r < p) => fast_cost h sg (N := N) (D := D) (G := G) fs
        (fun q hq => h0 q (List.mem_cons_of_mem _ hq)) (fun j => x (j * p + r)) (fun j hj => hx _ (by
          rw [List.prod_cons]
          calc j * p + r < j * p + p := by omega
            _ = p * (j + 1) := by ring
            _ ≤ p * fs.prod := Nat.mul_le_mul_left _ hj)) (k % fs.prod)
      have := csum_cost (p - 1) (t := fun r => twist rd (turnAngle (p * fs.prod) (sg * (r * k : ℕ)))
        (fast rd sg fs (fun j => x (j * p + r)) (k % fs.prod))) (fun r hr => twist_cost h (ih r (by omega)) _)
      have ed : D + steps fs + 2 + (p - 1) = D + steps (p :: fs) := by
        simp only [steps, List.map_cons, List.sum_cons]; omega
      have eg : (((p - 1 : ℕ) : ℝ) + 1) * (2 * (2 ^ fs.length * fs.prod * G)) =
          2 ^ (p :: fs).length * (p :: fs).prod * G := by
        have : ((p - 1 : ℕ) : ℝ) + 1 = p := by
          have : p - 1 + 1 = p := by omega
          exact_mod_cast this
        rw [this, List.length_cons, List.prod_cons, pow_succ]
        push_cast
        ring
      rw [ed, eg] at this
      exact this

/-- The fast transform is a computation of the transforms. -/
theorem transforms {rd : ℝ → ℝ} (h : NearestDouble rd) {fs : ℕ → List ℕ} {n : ℕ} [NeZero n] (hf : (fs n).prod = n) :
    Transforms (fastLib rd fs) n (1 + steps (fs n)) (2 ^ (fs n).length * n) := by
  have hn := NeZero.ne n
  have h0 : ∀ p ∈ fs n, p ≠ 0 := fun p hp h0 => hn (by
    rw [← hf]; exact List.prod_eq_zero (h0 ▸ hp))
  have d0 : Double 0 := by simpa using double_int (z := 0) (by norm_num)
  have cf : ∀ j < (fs n).prod, Cost n 1 1 (.input j, .scale 0 0 (.input j)) := by
    intro j hj
    rw [hf] at hj
    exact ⟨hj, ⟨⟨d0, by simp⟩, hj⟩, by simp [Lin.depth], by simp [Lin.depth], by simp [Lin.gain], by simp [Lin.gain]⟩
  have cb : ∀ k < (fs n).prod, Cost (2 * (n / 2 + 1)) 1 1 (if k ≤ n / 2 then (.input (2 * k), .input (2 * k + 1))
      else (.input (2 * (n - k)), .neg (.input (2 * (n - k) + 1)))) := by
    intro k hk
    rw [hf] at hk
    split
    · exact ⟨by simp only [Lin.Proper]; omega, by simp only [Lin.Proper]; omega, by simp [Lin.depth], by simp [Lin.depth],
        by simp [Lin.gain], by simp [Lin.gain]⟩
    · exact ⟨by simp only [Lin.Proper]; omega, by simp only [Lin.Proper]; omega, by simp [Lin.depth], by simp [Lin.depth],
        by simp [Lin.gain], by simp [Lin.gain]⟩
  refine ⟨?_, ?_, ?_, ?_⟩
  · intro x hx k hk
    have hv := fast_val rd (-1) (fun j => ((x.getD j 0 : ℤ) : ℝ)) (fs n) h0 (fun j => (.input j, .scale 0 0 (.input j))) k
    rw [hf] at hv
    have e : ∑ j ∈ Finset.range n, val (fun j => ((x.getD j 0 : ℤ) : ℝ)) (Lin.input j, Lin.scale 0 0 (Lin.input j)) *
        unit n (-1 * (j * k : ℕ)) = dft n x k := by
      unfold dft
      refine Finset.sum_congr rfl fun j _ => ?_
      rw [neg_one_mul]
      congr 1
      apply Complex.ext <;> simp [val, Lin.exact]
    rw [e] at hv
    exact ⟨by rw [← hv]; rfl, by rw [← hv]; rfl⟩
  · intro X hX t ht
    have hv := fast_val rd 1 (parts 0 X) (fs n) h0 (fun k => if k ≤ n / 2 then (.input (2 * k), .input (2 * k + 1))
      else (.input (2 * (n - k)), .neg (.input (2 * (n - k) + 1)))) t
    rw [hf] at hv
    rw [← Complex.re_sum]
    have e : ∀ k ∈ Finset.range n, hermitian n X k * unit n (k * t : ℕ) =
        val (parts 0 X) (if k ≤ n / 2 then (.input (2 * k), .input (2 * k + 1))
          else (.input (2 * (n - k)), .neg (.input (2 * (n - k) + 1)))) * unit n (1 * (k * t : ℕ)) := by
      intro k _
      rw [one_mul]
      congr 1
      have p0 : ∀ i, parts 0 X (2 * i) = (X.getD i (0, 0)).1 := fun i => by
        unfold parts
        rw [if_pos (by omega), Nat.mul_div_cancel_left _ (by norm_num)]
      have p1 : ∀ i, parts 0 X (2 * i + 1) = (X.getD i (0, 0)).2 := fun i => by
        unfold parts
        rw [if_neg (by omega), show (2 * i + 1) / 2 = i by omega]
      unfold hermitian
      split
      · apply Complex.ext
        · simp only [val, Lin.exact, p0]
        · simp only [val, Lin.exact, p1]
      · apply Complex.ext
        · simp only [val, Lin.exact, p0]
        · simp only [val, Lin.exact, p1]
    rw [Finset.sum_congr rfl e, ← hv]
    rfl
  · intro k hk a ha
    have c := fast_cost h (-1) (fs n) h0 _ cf k
    rw [hf, mul_one] at c
    rcases ha with rfl | rfl
    · exact ⟨c.p1, c.d1, c.g1⟩
    · exact ⟨c.p2, c.d2, c.g2⟩
  · intro t ht
    have c := fast_cost h 1 (fs n) h0 _ cb t
    rw [hf, mul_one] at c
    exact ⟨c.p1, c.d1, c.g1⟩

end Proofs.FastTransform
