import Mathlib.Logic.Equiv.Fin.Basic
import Mathlib.Tactic.FinCases
import Verif.Spec.Equivalence
import Verif.Proofs.Hadamard
import Verif.Proofs.Graph

/-!
# QT-equivalent quadruples give Hadamard-equivalent matrices
-/

set_option linter.unusedVariables false
set_option linter.unusedSectionVars false
set_option linter.unusedSimpArgs false

namespace Proofs.HadEquiv
open Model Spec Proofs.Hadamard

/-! ## Equivalence of matrices over any index type -/

/-- Permuting and negating rows and columns. -/
def GEquiv {ι : Type} (H K : ι → ι → ℤ) : Prop :=
  ∃ (σ τ : Equiv.Perm ι) (a b : ι → ℤ), (∀ i, a i = 1 ∨ a i = -1) ∧ (∀ j, b j = 1 ∨ b j = -1) ∧
    ∀ i j, K (σ i) (τ j) = a i * b j * H i j

theorem GEquiv.refl {ι : Type} (H : ι → ι → ℤ) : GEquiv H H :=
  ⟨1, 1, fun _ => 1, fun _ => 1, fun _ => .inl rfl, fun _ => .inl rfl, fun i j => by simp⟩

theorem GEquiv.symm {ι : Type} {H K : ι → ι → ℤ} (h : GEquiv H K) : GEquiv K H := by
  obtain ⟨σ, τ, a, b, ha, hb, h⟩ := h
  refine ⟨σ.symm, τ.symm, fun i => a (σ.symm i), fun j => b (τ.symm j), fun i => ha _, fun j => hb _, fun i j => ?_⟩
  have := h (σ.symm i) (τ.symm j)
  rw [Equiv.apply_symm_apply, Equiv.apply_symm_apply] at this
  have h1 := ha (σ.symm i)
  have h2 := hb (τ.symm j)
  rw [this]
  dsimp only
  generalize a (σ.symm i) = x at *
  generalize b (τ.symm j) = y at *
  rcases h1 with rfl | rfl <;> rcases h2 with rfl | rfl <;> ring

theorem GEquiv.trans {ι : Type} {H K L : ι → ι → ℤ} (h : GEquiv H K) (h' : GEquiv K L) : GEquiv H L := by
  obtain ⟨σ, τ, a, b, ha, hb, h⟩ := h
  obtain ⟨σ', τ', a', b', ha', hb', h'⟩ := h'
  refine ⟨σ.trans σ', τ.trans τ', fun i => a' (σ i) * a i, fun j => b' (τ j) * b j,
    fun i => Dephase.pm_mul (ha' _) (ha _), fun j => Dephase.pm_mul (hb' _) (hb _), fun i j => ?_⟩
  simp only [Equiv.trans_apply]
  rw [h', h]
  ring

theorem GEquiv.reindex {ι κ : Type} (e : ι ≃ κ) {H K : κ → κ → ℤ}
    (h : GEquiv (fun i j => H (e i) (e j)) fun i j => K (e i) (e j)) : GEquiv H K := by
  obtain ⟨σ, τ, a, b, ha, hb, h⟩ := h
  refine ⟨(e.symm.trans σ).trans e, (e.symm.trans τ).trans e, fun i => a (e.symm i), fun j => b (e.symm j),
    fun i => ha _, fun j => hb _, fun i j => ?_⟩
  have := h (e.symm i) (e.symm j)
  simpa using this

variable {n : ℕ} [NeZero n]

/-- The block matrix of a family. -/
def B (f : Fam n) (x y : Fin 4 × ZMod n) : ℤ := sgn x.1 y.1 * f (blk x.1 y.1) (y.2 - x.2)

/-! ## The moves -/

theorem shift_equiv (f : Fam n) (o : ZMod n) : GEquiv (B f) (B (shiftAll o f)) := by
  refine ⟨1, Equiv.prodCongr (Equiv.refl _) (Equiv.subRight o), fun _ => 1, fun _ => 1, fun _ => .inl rfl,
    fun _ => .inl rfl, fun x y => ?_⟩
  simp only [B, shiftAll, Equiv.Perm.one_apply, Equiv.prodCongr_apply, Prod.map, Equiv.refl_apply, Equiv.subRight_apply,
    one_mul]
  congr 2
  ring

theorem pow_val_sub (he : Even n) (x y : ZMod n) : (-1 : ℤ) ^ (y - x).val = (-1) ^ x.val * (-1) ^ y.val := by
  have h : ((y - x).val + x.val) % n = y.val := by
    have := ZMod.val_add (y - x) x
    rw [sub_add_cancel] at this
    exact this.symm
  obtain ⟨k, hk⟩ := he
  have h2 : (-1 : ℤ) ^ ((y - x).val + x.val) = (-1) ^ y.val := by
    conv_lhs => rw [← Nat.mod_add_div ((y - x).val + x.val) n, h, pow_add, pow_mul, show (-1 : ℤ) ^ n = 1 by
      rw [hk, ← two_mul, pow_mul]; simp]
    simp
  rw [pow_add] at h2
  rw [← h2, mul_left_comm, ← mul_assoc]
  have : ((-1 : ℤ) ^ x.val) * (-1) ^ x.val = 1 := by
    rcases neg_one_pow_eq_or ℤ x.val with e | e <;> rw [e] <;> rfl
  rw [mul_assoc, this, mul_one]

theorem alt_equiv (he : Even n) (f : Fam n) : GEquiv (B f) (B (altAll f)) := by
  refine ⟨1, 1, fun x => (-1) ^ x.2.val, fun y => (-1) ^ y.2.val, fun x => neg_one_pow_eq_or ℤ _,
    fun x => neg_one_pow_eq_or ℤ _, fun x y => ?_⟩
  simp only [B, altAll, Equiv.Perm.one_apply, pow_val_sub he]
  ring

theorem aut_equiv (u : (ZMod n)ˣ) (f : Fam n) : GEquiv (B f) (B (autAll u f)) := by
  refine ⟨Equiv.prodCongr (Equiv.refl _) (Units.mulLeft u⁻¹), Equiv.prodCongr (Equiv.refl _) (Units.mulLeft u⁻¹),
    fun _ => 1, fun _ => 1, fun _ => .inl rfl, fun _ => .inl rfl, fun x y => ?_⟩
  simp only [B, autAll, Equiv.prodCongr_apply, Prod.map, Equiv.refl_apply, Units.mulLeft_apply, one_mul]
  congr 2
  rw [mul_sub, ← mul_assoc, ← mul_assoc, Units.mul_inv, one_mul, one_mul]

theorem half_half (he : Even n) : ((n / 2 : ℕ) : ZMod n) + ((n / 2 : ℕ) : ZMod n) = 0 := by
  rw [← Nat.cast_add, show n / 2 + n / 2 = n by obtain ⟨k, rfl⟩ := he; omega]
  exact ZMod.natCast_self n

/-- A half shift of the blocks selected by an affine set. -/
theorem half_equiv (he : Even n) (p : Tag → Bool) (χ ψ : Fin 4 → Bool) (h : ∀ i j, p (blk i j) = xor (χ i) (ψ j))
    (f : Fam n) : GEquiv (B f) (B (halfAt p f)) := by
  have hh := half_half (n := n) he
  let w : Bool → ZMod n := fun b => if b then ((n / 2 : ℕ) : ZMod n) else 0
  let sh : (Fin 4 → Bool) → Equiv.Perm (Fin 4 × ZMod n) := fun c =>
    { toFun := fun x => (x.1, x.2 + w (c x.1))
      invFun := fun x => (x.1, x.2 - w (c x.1))
      left_inv := fun x => by simp
      right_inv := fun x => by simp }
  refine ⟨sh χ, sh ψ, fun _ => 1, fun _ => 1, fun _ => .inl rfl, fun _ => .inl rfl, fun x y => ?_⟩
  simp only [B, halfAt, sh, Equiv.coe_fn_mk, one_mul, h, w]
  generalize ((n / 2 : ℕ) : ZMod n) = k at hh
  cases χ x.1 <;> cases ψ y.1 <;> simp
  · left; congr 1; rw [show y.2 + k - x.2 + k = y.2 - x.2 + (k + k) by ring, hh, add_zero]
  · left; congr 1; ring

/-- The number of a tag. -/
def tagNo : Tag → Fin 4
  | .W => 0
  | .X => 1
  | .Y => 2
  | .Z => 3

/-- Row permutation for an exchange of two sequences. -/
def rowPerm (t₁ t₂ : Tag) : Equiv.Perm (Fin 4) :=
  if tagNo t₁ = 0 ∨ tagNo t₂ = 0 then
    if tagNo t₁ + tagNo t₂ = 1 then Equiv.swap 2 3 else if tagNo t₁ + tagNo t₂ = 2 then Equiv.swap 1 3 else Equiv.swap 1 2
  else Equiv.swap (tagNo t₁) (tagNo t₂)

/-- Column permutation for an exchange of two sequences. -/
def colPerm (t₁ t₂ : Tag) : Equiv.Perm (Fin 4) := Equiv.swap (tagNo t₁) (tagNo t₂)

/-- Sign change of a block. -/
def nsSign (t₀ t₁ t₂ : Tag) (p q : Fin 4) : ℤ :=
  sgn (rowPerm t₁ t₂ p) (colPerm t₁ t₂ q) * (if blk p q = t₀ then -1 else 1) * sgn p q

theorem ns_table (t₀ t₁ t₂ : Tag) (h : t₁ ≠ t₂) : ∀ p q : Fin 4,
    Equiv.swap t₁ t₂ (blk (rowPerm t₁ t₂ p) (colPerm t₁ t₂ q)) = blk p q ∧
    (nsSign t₀ t₁ t₂ p q = nsSign t₀ t₁ t₂ p 0 * nsSign t₀ t₁ t₂ 0 0 * nsSign t₀ t₁ t₂ 0 q) ∧
    (nsSign t₀ t₁ t₂ p q = 1 ∨ nsSign t₀ t₁ t₂ p q = -1) ∧ sgn p q * sgn p q = 1 := by
  cases t₀ <;> cases t₁ <;> cases t₂ <;> first | exact absurd rfl h | decide

theorem ns_equiv (t₀ t₁ t₂ : Tag) (h : t₁ ≠ t₂) (f : Fam n) : GEquiv (B f) (B (swapFam t₁ t₂ (negAt t₀ f))) := by
  have ht := ns_table t₀ t₁ t₂ h
  refine ⟨Equiv.prodCongr (rowPerm t₁ t₂) (Equiv.refl _), Equiv.prodCongr (colPerm t₁ t₂) (Equiv.refl _),
    fun x => nsSign t₀ t₁ t₂ x.1 0 * nsSign t₀ t₁ t₂ 0 0, fun y => nsSign t₀ t₁ t₂ 0 y.1,
    fun x => Dephase.pm_mul (ht _ _).2.2.1 (ht _ _).2.2.1, fun y => (ht _ _).2.2.1, fun x y => ?_⟩
  obtain ⟨h1, h2, h3, h4⟩ := ht x.1 y.1
  rw [← h2]
  simp only [B, swapFam, negAt, Equiv.prodCongr_apply, Prod.map, Equiv.refl_apply, h1, nsSign]
  have e : ∀ z s : ℤ, s * (if blk x.1 y.1 = t₀ then -1 else 1) * sgn x.1 y.1 * (sgn x.1 y.1 * z) =
      s * (if blk x.1 y.1 = t₀ then -z else z) := by
    intro z s
    have : s * (if blk x.1 y.1 = t₀ then -1 else 1) * sgn x.1 y.1 * (sgn x.1 y.1 * z) =
      s * (if blk x.1 y.1 = t₀ then -1 else 1) * z * (sgn x.1 y.1 * sgn x.1 y.1) := by ring
    rw [this, h4]
    split <;> ring
  rw [e]

theorem two_affine (t₁ t₂ : Tag) (h : t₁ ≠ t₂) : ∀ i j : Fin 4,
    decide (blk i j = t₁ ∨ blk i j = t₂) =
      xor (xor (decide (blk i 0 = t₁ ∨ blk i 0 = t₂)) (decide (blk 0 0 = t₁ ∨ blk 0 0 = t₂)))
        (decide (blk 0 j = t₁ ∨ blk 0 j = t₂)) := by
  cases t₁ <;> cases t₂ <;> first | exact absurd rfl h | decide

theorem move_equiv {f g : Fam n} (h : QTMove f g) : GEquiv (B f) (B g) := by
  rcases h with h | h | h | h
  · obtain ⟨o⟩ := h
    exact shift_equiv f o
  · cases h with
    | alt he => exact alt_equiv he f
    | aut u => exact aut_equiv u f
  · cases h with
    | two he t₁ t₂ h => exact half_equiv he _ _ _ (two_affine t₁ t₂ h) f
    | four he => exact half_equiv he _ (fun _ => true) (fun _ => false) (fun _ _ => rfl) f
  · obtain ⟨t₀, t₁, t₂, h⟩ := h
    exact ns_equiv t₀ t₁ t₂ h f

theorem qt_equiv {f g : Fam n} (h : QTEquiv f g) : GEquiv (B f) (B g) := by
  induction h with
  | rel _ _ h => exact move_equiv h
  | refl => exact .refl _
  | symm _ _ _ ih => exact ih.symm
  | trans _ _ _ _ _ ih1 ih2 => exact ih1.trans ih2

/-! ## Stored matrices -/

/-- Row and column indices. -/
noncomputable def idx (n : ℕ) [NeZero n] : Fin 4 × ZMod n ≃ Fin (4 * n) :=
  Equiv.ofBijective (fun x => ⟨x.2.val + x.1 * n, by
      have := ZMod.val_lt x.2
      have := x.1.2
      nlinarith⟩)
    ⟨fun x y h => by
      have h := Fin.mk.inj_iff.1 h
      have hn : 0 < n := Nat.pos_of_ne_zero (NeZero.ne n)
      have h1 := ZMod.val_lt x.2
      have h2 := ZMod.val_lt y.2
      have e1 : ((x.2.val + x.1 * n) / n : ℕ) = x.1 := by
        rw [Nat.add_mul_div_right _ _ hn, Nat.div_eq_of_lt h1, zero_add]
      have e2 : ((y.2.val + y.1 * n) / n : ℕ) = y.1 := by
        rw [Nat.add_mul_div_right _ _ hn, Nat.div_eq_of_lt h2, zero_add]
      rw [h, e2] at e1
      rw [e1] at h
      exact Prod.ext (Fin.ext e1.symm) (ZMod.val_injective n (by omega)), fun i => by
      obtain ⟨p, r, hr, hi⟩ := exists_block (n := n) i.2
      exact ⟨(p, (r : ZMod n)), Fin.ext (by simp only [ZMod.val_natCast, Nat.mod_eq_of_lt hr]; exact hi.symm)⟩⟩

theorem idx_val (x : Fin 4 × ZMod n) : ((idx n x : Fin (4 * n)) : ℕ) = x.2.val + x.1 * n := rfl

theorem zmat_idx {s : QuadSeq} {m : HM}
    (h4 : ∀ (p q : Fin 4) (r c : ℕ), r < n → c < n →
      get2 0 m.matrix (r + p * n) (c + q * n) = sgn p q * fam n s (blk p q) ((c : ZMod n) - r))
    (x y : Fin 4 × ZMod n) : zmat (4 * n) m.matrix (idx n x) (idx n y) = B (fam n s) x y := by
  change get2 0 m.matrix (idx n x) (idx n y) = _
  rw [idx_val, idx_val, h4 x.1 y.1 x.2.val y.2.val (ZMod.val_lt _) (ZMod.val_lt _)]
  simp [B]

/-- QT-equivalent quadruples give equivalent matrices. -/
theorem hm_equiv {s t : QuadSeq} (hs : PMQuad n s) (ht : PMQuad n t) (h : QTEquiv (fam n s) (fam n t)) :
    ∃ m m', HM.fromWilliamson s .quaternionType = some m ∧ HM.fromWilliamson t .quaternionType = some m' ∧ HMEquiv m m' := by
  obtain ⟨m, h1, h2, h3, h4⟩ := fromWilliamson_spec hs
  obtain ⟨m', k1, k2, k3, k4⟩ := fromWilliamson_spec ht
  refine ⟨m, m', h1, k1, h2.trans k2.symm, ?_⟩
  rw [h2]
  have e1 : (fun x y => zmat (4 * n) m.matrix (idx n x) (idx n y)) = B (fam n s) := by
    funext x y; exact zmat_idx h4 x y
  have e2 : (fun x y => zmat (4 * n) m'.matrix (idx n x) (idx n y)) = B (fam n t) := by
    funext x y; exact zmat_idx k4 x y
  exact GEquiv.reindex (idx n) (by rw [e1, e2]; exact qt_equiv h)

/-! ## Equivalence of stored matrices is an equivalence relation -/

theorem HMEquiv.refl (m : HM) : HMEquiv m m := ⟨rfl, GEquiv.refl _⟩

theorem HMEquiv.symm {m m' : HM} (h : HMEquiv m m') : HMEquiv m' m := by
  obtain ⟨h1, h2⟩ := h
  refine ⟨h1.symm, ?_⟩
  rw [← h1]
  exact GEquiv.symm h2

theorem HMEquiv.trans {m m' m'' : HM} (h : HMEquiv m m') (h' : HMEquiv m' m'') : HMEquiv m m'' := by
  obtain ⟨h1, h2⟩ := h
  obtain ⟨k1, k2⟩ := h'
  refine ⟨h1.trans k1, ?_⟩
  rw [← h1] at k2
  exact GEquiv.trans h2 k2

end Proofs.HadEquiv
