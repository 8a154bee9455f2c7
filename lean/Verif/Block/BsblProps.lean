import Verif.Block.BsblLemmas

set_option autoImplicit false
/-!
# Block sparse Bayesian learning (C73, C88, C89, C90)

`Phi` has `nb` blocks of `b` columns; column `j` of block `i` has the index `finProdFinEquiv (i, j)`, that is `i * b + j`.
-/
noncomputable section
namespace Verif.Block
open Verif.Loop Matrix

variable {m nb b : ℕ}

/-! ## Specification -/

/-- Specification: the block-diagonal matrix with given blocks. -/
def bdiag (S : Fin nb → Matrix (Fin b) (Fin b) ℝ) : Matrix (Fin (nb * b)) (Fin (nb * b)) ℝ := Matrix.of fun k l =>
  if (finProdFinEquiv.symm k).1 = (finProdFinEquiv.symm l).1 then S (finProdFinEquiv.symm k).1 (finProdFinEquiv.symm k).2 (finProdFinEquiv.symm l).2 else 0

/-- Specification: block `i` of a vector. -/
def blockOf (x : Fin (nb * b) → ℝ) (i : Fin nb) : Fin b → ℝ := fun j => x (finProdFinEquiv (i, j))

open Classical in
/-- Specification: twice the negative logarithm of the posterior density, up to constants and the factor `1 / lam`, for independent Gaussian blocks with covariances `S i`
on the blocks `i` in `act` and Gaussian noise of variance `lam`. -/
def mapObj (Phi : Matrix (Fin m) (Fin (nb * b)) ℝ) (y : Fin m → ℝ) (S : Fin nb → Matrix (Fin b) (Fin b) ℝ) (lam : ℝ) (act : Fin nb → Prop)
    (x : Fin (nb * b) → ℝ) : ℝ :=
  (y - Phi *ᵥ x) ⬝ᵥ (y - Phi *ᵥ x) + lam * ∑ i with act i, blockOf x i ⬝ᵥ ((S i)⁻¹ *ᵥ blockOf x i)

theorem bdiag_apply (S : Fin nb → Matrix (Fin b) (Fin b) ℝ) (i k : Fin nb) (j l : Fin b) :
    bdiag S (finProdFinEquiv (i, j)) (finProdFinEquiv (k, l)) = if i = k then S i j l else 0 := by
  simp only [bdiag, Matrix.of_apply, Equiv.symm_apply_apply]

theorem mul_bdiag (Phi : Matrix (Fin m) (Fin (nb * b)) ℝ) (S : Fin nb → Matrix (Fin b) (Fin b) ℝ) (r : Fin m) (k : Fin nb) (l : Fin b) :
    (Phi * bdiag S) r (finProdFinEquiv (k, l)) = (getSubdicts Phi k * S k) r l := by
  rw [Matrix.mul_apply, sum_blocks, Finset.sum_eq_single k]
  · rw [Matrix.mul_apply]
    exact Finset.sum_congr rfl fun j _ => by rw [bdiag_apply, if_pos rfl, getSubdicts_apply]
  · intro i _ hi
    exact Finset.sum_eq_zero fun j _ => by rw [bdiag_apply, if_neg hi, mul_zero]
  · intro h
    exact absurd (Finset.mem_univ k) h

theorem gram_eq (Phi : Matrix (Fin m) (Fin (nb * b)) ℝ) (S : Fin nb → Matrix (Fin b) (Fin b) ℝ) :
    Phi * bdiag S * Phiᵀ = ∑ i, getSubdicts Phi i * S i * (getSubdicts Phi i)ᵀ := by
  ext r t
  rw [Matrix.mul_apply, sum_blocks, Matrix.sum_apply]
  refine Finset.sum_congr rfl fun k _ => ?_
  rw [Matrix.mul_apply]
  exact Finset.sum_congr rfl fun l _ => by rw [mul_bdiag, transpose_apply, transpose_apply, getSubdicts_apply]

/-- **C73.** `cum_phi_b_phi` is `Phi Sigma0 Phiᵀ`. -/
theorem c73_gram (Phi : Matrix (Fin m) (Fin (nb * b)) ℝ) (S : Fin nb → Matrix (Fin b) (Fin b) ℝ) :
    cumPhiBPhi (getSubdicts Phi) (fun i => some (S i)) = some (Phi * bdiag S * Phiᵀ) := by
  rw [gram_eq]
  exact osum_some fun i => rfl

/-- **C73.** `cum_phi_b_phi_pruned` is `Phi Sigma0 Phiᵀ` with the inactive blocks of `Sigma0` set to zero, whatever their contents. -/
theorem c73_gram_pruned (Phi : Matrix (Fin m) (Fin (nb * b)) ℝ) (S : Fin nb → Matrix (Fin b) (Fin b) ℝ) (T : Fin nb → Option (Matrix (Fin b) (Fin b) ℝ))
    (active : Fin nb → Bool) (h : ∀ i, active i = true → T i = some (S i)) :
    cumPhiBPhiPruned (getSubdicts Phi) T active = some (Phi * bdiag (fun i => if active i then S i else 0) * Phiᵀ) := by
  rw [gram_eq]
  refine osum_some fun i => ?_
  cases ha : active i with
  | false => simp
  | true => simp [h i ha]

/-- **C73.** The reference implementation computes the same matrix. -/
theorem c73_gram_ref (Phi : Matrix (Fin m) (Fin (nb * b)) ℝ) (S : Fin nb → Matrix (Fin b) (Fin b) ℝ) : cumPhiBPhiRef Phi S = Phi * bdiag S * Phiᵀ := by
  rw [gram_eq, cumPhiBPhiRef]
  have e : ∀ i, phiBPhi Phi i (S i) = getSubdicts Phi i * S i * (getSubdicts Phi i)ᵀ := fun i => by
    have e1 : (Phi.submatrix id fun j : Fin b => ⟨(i : ℕ) * b + j, by
        have hi : (i : ℕ) + 1 ≤ nb := i.isLt
        have := Nat.mul_le_mul_right b hi
        have := j.isLt
        nlinarith⟩) = getSubdicts Phi i := by
      ext r c
      rw [getSubdicts_apply]
      show Phi r _ = Phi r _
      congr 1
      ext
      show (i : ℕ) * b + c = c + b * i
      ring
    show (Phi.submatrix id fun j : Fin b => _) * S i * _ᵀ = _
    rw [e1]
  have h2 : ∀ (L : List (Fin nb)) (A : Matrix (Fin m) (Fin m) ℝ), L.foldl (fun result i => result + phiBPhi Phi i (S i)) A =
      A + (L.map fun i => getSubdicts Phi i * S i * (getSubdicts Phi i)ᵀ).sum := by
    intro L
    induction L with
    | nil => intro A; simp
    | cons a L ih => intro A; rw [List.foldl_cons, ih, List.map_cons, List.sum_cons, e, add_assoc]
  rw [h2, zero_add, ← List.ofFn_eq_map, List.sum_ofFn]

open Classical in
/-- The posterior mean minimises the objective, uniquely. -/
theorem postMean_min (Phi : Matrix (Fin m) (Fin (nb * b)) ℝ) (y : Fin m → ℝ) (S : Fin nb → Matrix (Fin b) (Fin b) ℝ) (lam : ℝ) (hl : 0 < lam)
    (act : Fin nb → Prop) (h1 : ∀ i, act i → (S i).PosDef) (h0 : ∀ i, ¬ act i → S i = 0) (z : Fin (nb * b) → ℝ)
    (hz : ∀ i, ¬ act i → blockOf z i = 0) (hne : z ≠ flatten2 (postMean (getSubdicts Phi) S lam y)) :
    mapObj Phi y S lam act (flatten2 (postMean (getSubdicts Phi) S lam y)) < mapObj Phi y S lam act z := by
  have hS : ∀ i, Psd (S i) := fun i => by
    by_cases h : act i
    · exact posDef_psd (h1 i h)
    · rw [h0 i h]; exact psd_zero
  set mu := postMean (getSubdicts Phi) S lam y with hmu
  set w := (regGram (getSubdicts Phi) S lam)⁻¹ *ᵥ y with hw
  have hres : y - Phi *ᵥ flatten2 mu = lam • w := post_residual hS hl
  have hb : ∀ i, blockOf (flatten2 mu) i = mu i := fun i => funext fun j => flatten2_apply mu i j
  set d := z - flatten2 mu with hd
  have hdz : z = flatten2 mu + d := by rw [hd]; abel
  have hbz : ∀ i, blockOf z i = mu i + blockOf d i := fun i => by
    rw [← hb]
    funext j
    show z _ = flatten2 mu _ + d _
    rw [hdz]
    rfl
  have hr : (y - Phi *ᵥ z) ⬝ᵥ (y - Phi *ᵥ z) = (lam • w) ⬝ᵥ (lam • w) - 2 * lam * (w ⬝ᵥ (Phi *ᵥ d)) + (Phi *ᵥ d) ⬝ᵥ (Phi *ᵥ d) := by
    have : y - Phi *ᵥ z = lam • w - Phi *ᵥ d := by
      rw [hdz, mulVec_add, ← hres]
      abel
    rw [this, sub_dotProduct, dotProduct_sub, dotProduct_sub, dotProduct_comm (Phi *ᵥ d) (lam • w), smul_dotProduct lam w (Phi *ᵥ d), smul_eq_mul]
    ring
  have hcross : w ⬝ᵥ (Phi *ᵥ d) = ∑ i, ((getSubdicts Phi i)ᵀ *ᵥ w) ⬝ᵥ blockOf d i := by
    rw [mulVec_blocks, dotProduct_sum]
    exact Finset.sum_congr rfl fun i _ => (trans_dot _ _ _).symm
  have hd0 : ∀ i, ¬ act i → blockOf d i = 0 := fun i hi => by
    have e1 := hbz i
    have e2 : mu i = 0 := by
      rw [hmu, postMean, h0 i hi, zero_mulVec]
    rw [hz i hi, e2, zero_add] at e1
    exact e1.symm
  have hpen : ∑ i with act i, blockOf z i ⬝ᵥ ((S i)⁻¹ *ᵥ blockOf z i) = ∑ i with act i, mu i ⬝ᵥ ((S i)⁻¹ *ᵥ mu i) + 2 * (w ⬝ᵥ (Phi *ᵥ d)) +
      ∑ i with act i, blockOf d i ⬝ᵥ ((S i)⁻¹ *ᵥ blockOf d i) := by
    have e1 : w ⬝ᵥ (Phi *ᵥ d) = ∑ i with act i, ((getSubdicts Phi i)ᵀ *ᵥ w) ⬝ᵥ blockOf d i := by
      rw [hcross, Finset.sum_filter]
      refine Finset.sum_congr rfl fun i _ => ?_
      split
      · rfl
      · rename_i h
        rw [hd0 i h, dotProduct_zero]
    rw [e1, Finset.mul_sum, ← Finset.sum_add_distrib, ← Finset.sum_add_distrib]
    refine Finset.sum_congr rfl fun i hi => ?_
    have hi := h1 i (Finset.mem_filter.mp hi).2
    have e2 : (S i)⁻¹ *ᵥ mu i = (getSubdicts Phi i)ᵀ *ᵥ w := by
      rw [hmu, postMean, mulVec_mulVec, posDef_inv_mul hi, one_mulVec]
    have e3 : ((S i)⁻¹)ᵀ = (S i)⁻¹ := by rw [transpose_nonsing_inv, (hS i).1]
    have e4 := symm_dot e3 (mu i) (blockOf d i)
    rw [e2] at e4
    rw [hbz i, mulVec_add, add_dotProduct, dotProduct_add, dotProduct_add, e2, ← e4, dotProduct_comm (blockOf d i) ((getSubdicts Phi i)ᵀ *ᵥ w)]
    ring
  have hpos : 0 < ∑ i with act i, blockOf d i ⬝ᵥ ((S i)⁻¹ *ᵥ blockOf d i) := by
    have : d ≠ 0 := sub_ne_zero.mpr hne
    obtain ⟨k, hk⟩ := Function.ne_iff.mp this
    have hk' : blockOf d (finProdFinEquiv.symm k).1 ≠ 0 := fun h => by
      have := congrFun h (finProdFinEquiv.symm k).2
      simp only [blockOf, Prod.mk.eta, Equiv.apply_symm_apply] at this
      exact hk this
    have hact : act (finProdFinEquiv.symm k).1 := by
      by_contra h
      exact hk' (hd0 _ h)
    refine Finset.sum_pos' (fun i hi => ?_) ⟨_, Finset.mem_filter.mpr ⟨Finset.mem_univ _, hact⟩, ?_⟩
    · exact (posDef_psd (h1 i (Finset.mem_filter.mp hi).2).inv).2 _
    · exact (posDef_iff.mp (h1 _ hact).inv).2 _ hk'
  unfold mapObj
  rw [hr, hpen, hres]
  simp only [hb]
  have := mul_pos hl hpos
  have := dot_self_nonneg (Phi *ᵥ d)
  linarith

/-- **C73.** `compute_mu_x` is the posterior mean: the unique minimiser of the regularised problem. -/
theorem c73_mean (Phi : Matrix (Fin m) (Fin (nb * b)) ℝ) (y : Fin m → ℝ) (S : Fin nb → Matrix (Fin b) (Fin b) ℝ) (hS : ∀ i, (S i).PosDef) (lam : ℝ) (hl : 0 < lam) :
    ∃ x, xHat (computeMuX (fun i => some (S i)) ((cumPhiBPhi (getSubdicts Phi) fun i => some (S i)).bind fun P => computeH Phi P lam) y) = some x ∧
      ∀ z, z ≠ x → mapObj Phi y S lam (fun _ => True) x < mapObj Phi y S lam (fun _ => True) z := by
  have hA := regGram_posDef (D := getSubdicts Phi) (fun i => posDef_psd (hS i)) hl
  refine ⟨flatten2 (postMean (getSubdicts Phi) S lam y), ?_, fun z hz => postMean_min Phi y S lam hl (fun _ => True) (fun i _ => hS i) (fun _ h => absurd trivial h) z
    (fun _ h => absurd trivial h) hz⟩
  have e : ((cumPhiBPhi (getSubdicts Phi) fun i => some (S i)).bind fun P => computeH Phi P lam) = some (((regGram (getSubdicts Phi) S lam)⁻¹ * Phi)ᵀ) := by
    rw [c73_gram, gram_eq, Option.bind_some, computeH_eq Phi hA]
    rfl
  rw [e, xHat, gather_some (g := postMean (getSubdicts Phi) S lam y), Option.map_some]
  intro i
  show some (S i *ᵥ reshape2 _ i) = _
  rw [hy_block (regGram_inv_symm fun i => posDef_psd (hS i))]
  rfl

theorem bdiag_mul (S T : Fin nb → Matrix (Fin b) (Fin b) ℝ) : bdiag S * bdiag T = bdiag fun i => S i * T i := by
  ext k l
  obtain ⟨⟨i, j⟩, rfl⟩ := finProdFinEquiv.surjective k
  obtain ⟨⟨p, q⟩, rfl⟩ := finProdFinEquiv.surjective l
  rw [Matrix.mul_apply, sum_blocks, bdiag_apply, Finset.sum_eq_single i]
  · simp only [bdiag_apply, if_true]
    split
    · rw [Matrix.mul_apply]
    · simp
  · intro t _ ht
    exact Finset.sum_eq_zero fun u _ => by rw [bdiag_apply, if_neg (Ne.symm ht), zero_mul]
  · intro h
    exact absurd (Finset.mem_univ i) h

theorem bdiag_one : bdiag (fun _ : Fin nb => (1 : Matrix (Fin b) (Fin b) ℝ)) = 1 := by
  ext k l
  obtain ⟨⟨i, j⟩, rfl⟩ := finProdFinEquiv.surjective k
  obtain ⟨⟨p, q⟩, rfl⟩ := finProdFinEquiv.surjective l
  rw [bdiag_apply, Matrix.one_apply, Matrix.one_apply]
  by_cases h1 : i = p <;> by_cases h2 : j = q <;> simp [h1, h2]

theorem diagBlocks_mid (S : Fin nb → Matrix (Fin b) (Fin b) ℝ) (K : Matrix (Fin (nb * b)) (Fin (nb * b)) ℝ) (i : Fin nb) :
    diagBlocks (bdiag S - bdiag S * K * bdiag S) i = S i - S i * diagBlocks K i * S i := by
  have h1 : ∀ (p q : Fin nb) (j l : Fin b), (bdiag S * K) (finProdFinEquiv (p, j)) (finProdFinEquiv (q, l)) = ∑ u, S p j u * K (finProdFinEquiv (p, u)) (finProdFinEquiv (q, l)) := by
    intro p q j l
    rw [Matrix.mul_apply, sum_blocks, Finset.sum_eq_single p]
    · exact Finset.sum_congr rfl fun u _ => by rw [bdiag_apply, if_pos rfl]
    · intro t _ ht
      exact Finset.sum_eq_zero fun u _ => by rw [bdiag_apply, if_neg (Ne.symm ht), zero_mul]
    · intro h
      exact absurd (Finset.mem_univ p) h
  ext j l
  show (bdiag S - bdiag S * K * bdiag S) _ _ = _
  rw [Matrix.sub_apply, Matrix.sub_apply, bdiag_apply, if_pos rfl, Matrix.mul_apply, sum_blocks, Finset.sum_eq_single i, Matrix.mul_apply]
  · congr 1
    refine Finset.sum_congr rfl fun u _ => ?_
    rw [bdiag_apply, if_pos rfl, h1, Matrix.mul_apply]
    rfl
  · intro t _ ht
    exact Finset.sum_eq_zero fun u _ => by rw [bdiag_apply, if_neg ht, mul_zero]
  · intro h
    exact absurd (Finset.mem_univ i) h

/-- **C73.** `compute_sigma_x` returns the diagonal blocks of the posterior covariance `(Sigma0⁻¹ + Phiᵀ Phi / lam)⁻¹`. -/
theorem c73_covariance (Phi : Matrix (Fin m) (Fin (nb * b)) ℝ) (S : Fin nb → Matrix (Fin b) (Fin b) ℝ) (hS : ∀ i, (S i).PosDef) (lam : ℝ) (hl : 0 < lam) (i : Fin nb) :
    computeSigmaX Phi (fun i => some (S i)) ((cumPhiBPhi (getSubdicts Phi) fun i => some (S i)).bind fun P => computeH Phi P lam) i =
      some (diagBlocks ((bdiag S)⁻¹ + lam⁻¹ • (Phiᵀ * Phi))⁻¹ i) := by
  have hA := regGram_posDef (D := getSubdicts Phi) (fun i => posDef_psd (hS i)) hl
  have hAeq : regGram (getSubdicts Phi) S lam = Phi * bdiag S * Phiᵀ + lam • (1 : Matrix (Fin m) (Fin m) ℝ) := by rw [regGram, gram_eq]
  have e : ((cumPhiBPhi (getSubdicts Phi) fun i => some (S i)).bind fun P => computeH Phi P lam) = some (((regGram (getSubdicts Phi) S lam)⁻¹ * Phi)ᵀ) := by
    rw [c73_gram, gram_eq, Option.bind_some, computeH_eq Phi hA]
    rfl
  have hT : bdiag S * bdiag (fun i => (S i)⁻¹) = 1 := by
    rw [bdiag_mul, ← bdiag_one]
    congr 1
    funext i
    exact posDef_mul_inv (hS i)
  have hSi : (bdiag S)⁻¹ = bdiag fun i => (S i)⁻¹ := Matrix.inv_eq_right_inv hT
  set A := regGram (getSubdicts Phi) S lam with hAdef
  have hw : ((bdiag S)⁻¹ + lam⁻¹ • (Phiᵀ * Phi))⁻¹ = bdiag S - bdiag S * (Phiᵀ * A⁻¹ * Phi) * bdiag S := by
    refine Matrix.inv_eq_left_inv ?_
    rw [hSi, Matrix.mul_add, Matrix.sub_mul, hT, Matrix.mul_assoc (bdiag S * (Phiᵀ * A⁻¹ * Phi)), hT, Matrix.mul_one, Matrix.mul_smul, Matrix.sub_mul]
    have h1 : bdiag S * (Phiᵀ * A⁻¹ * Phi) * bdiag S * (Phiᵀ * Phi) = bdiag S * Phiᵀ * (A⁻¹ * (Phi * bdiag S * Phiᵀ)) * Phi := by
      simp only [Matrix.mul_assoc]
    have h2 : Phi * bdiag S * Phiᵀ = A - lam • (1 : Matrix (Fin m) (Fin m) ℝ) := by rw [hAeq]; abel
    rw [h1, h2, Matrix.mul_sub, posDef_inv_mul hA, Matrix.mul_smul, Matrix.mul_one, Matrix.mul_sub, Matrix.sub_mul, Matrix.mul_one, Matrix.mul_smul, Matrix.smul_mul]
    have h3 : bdiag S * Phiᵀ * A⁻¹ * Phi = bdiag S * (Phiᵀ * A⁻¹ * Phi) := by simp only [Matrix.mul_assoc]
    rw [h3, Matrix.mul_assoc (bdiag S) Phiᵀ Phi, smul_sub, smul_sub, smul_smul, inv_mul_cancel₀ hl.ne', one_smul]
    abel
  rw [hw, e, diagBlocks_mid]
  show some (S i - S i * diagBlocks _ i * S i) = _
  rw [hphi_block (regGram_inv_symm fun i => posDef_psd (hS i)), ← hphi_block (Phi := Phi) (regGram_inv_symm fun i => posDef_psd (hS i)), transpose_mul, regGram_inv_symm fun i => posDef_psd (hS i)]

/-- **C73.** For blocks of length one `compute_cov_x` is the second moment `Sigma_x + mu muᵀ`. For longer blocks it is not: `c73_second_moment_fails`. -/
theorem c73_second_moment_partial (sx : Matrix (Fin 1) (Fin 1) ℝ) (mx : Fin 1 → ℝ) : computeCovX sx mx = sx + vecMulVec mx mx := by
  ext i j
  rw [Subsingleton.elim i 0, Subsingleton.elim j 0]
  show sx 0 0 + ∑ k, mx k * mx k = sx 0 0 + mx 0 * mx 0
  rw [Fin.sum_univ_one]

/-- **C73, refuted.** For every block length above one there are means for which `compute_cov_x` is not the second moment: it adds the squared norm of the mean to every
entry. -/
theorem c73_second_moment_fails (hb : 1 < b) (sx : Matrix (Fin b) (Fin b) ℝ) : ∃ mx : Fin b → ℝ, computeCovX sx mx ≠ sx + vecMulVec mx mx := by
  refine ⟨Pi.single ⟨0, by omega⟩ 1, fun h => ?_⟩
  have h1 := congrFun (congrFun h ⟨1, hb⟩) ⟨1, hb⟩
  have h2 : (Pi.single ⟨0, by omega⟩ 1 : Fin b → ℝ) ⬝ᵥ Pi.single ⟨0, by omega⟩ 1 = 1 := by simp
  have h3 : computeCovX sx (Pi.single ⟨0, by omega⟩ 1) ⟨1, hb⟩ ⟨1, hb⟩ = sx ⟨1, hb⟩ ⟨1, hb⟩ + 1 := by
    show sx _ _ + (Pi.single ⟨0, by omega⟩ 1 : Fin b → ℝ) ⬝ᵥ Pi.single ⟨0, by omega⟩ 1 = _
    rw [h2]
  rw [h3, Matrix.add_apply, vecMulVec_apply] at h1
  simp at h1

/-! ## The iteration -/

section
variable {Phi : Matrix (Fin m) (Fin (nb * b)) ℝ} {y : Fin m → ℝ} {opt : BsblOptions} {s : BsblState m nb b}

theorem gammasEm_inactive {Cov : Fin nb → Option (Matrix (Fin b) (Fin b) ℝ)} {Binv : Option (Matrix (Fin b) (Fin b) ℝ)} {active : Fin nb → Bool} {prune : ℝ}
    (hp : 0 ≤ prune) {i : Fin nb} (h : active i = false) : activeBlocks prune (gammasEm Cov Binv active) i = false := by
  rw [Bool.eq_false_iff, Ne, active_true]
  rintro ⟨g, hg, hpg⟩
  simp only [gammasEm, h, Bool.false_eq_true, if_false, Option.bind_some, odiv] at hg
  split at hg
  · exact absurd hg (by simp)
  · rw [zero_div, Option.some.injEq] at hg
    linarith

theorem gammasBo_inactive {svd : Svd b} {old : Fin nb → Option ℝ} {B : Option (Matrix (Fin b) (Fin b) ℝ)} {Hy : Option (Fin nb → Fin b → ℝ)}
    {HPhi : Option (Fin nb → Matrix (Fin b) (Fin b) ℝ)} {active : Fin nb → Bool} {prune : ℝ} (hp : 0 ≤ prune) {i : Fin nb} (h : active i = false) :
    activeBlocks prune (gammasBo svd old B Hy HPhi active) i = false := by
  rw [Bool.eq_false_iff, Ne, active_true]
  rintro ⟨g, hg, hpg⟩
  simp only [gammasBo, h, Bool.false_eq_true, if_false, Option.some.injEq] at hg
  linarith

theorem lambdaRule_pos (hlearn : opt.learnLambda ≤ 0 ∨ opt.learnLambda = 1 ∧ y ≠ 0) (h : Valid opt s) (gammas : Fin nb → Option ℝ) :
    ∃ l, (bsblBody Phi y opt s gammas).lam = some l ∧ 0 < l := by
  obtain ⟨S, l, hP⟩ := h.exists_prior
  show ∃ l', lambdaRule opt.learnLambda s.lam (getSubdicts Phi) s.gammas (stepSigma Phi opt s) ((stepB Phi y opt s).bind minv)
    ((stepRes Phi y opt s).map fun r => r ⬝ᵥ r) = some l' ∧ 0 < l'
  unfold lambdaRule
  rcases hlearn with hle | ⟨h1, hy⟩
  · rw [if_pos hle]
    exact ⟨l, hP.lam, hP.pos⟩
  · rw [if_neg (by omega), if_pos h1, lambdaLow, stepRes_eq hP,
      osum_some (g := fun i => (getSubdicts Phi i * postCov (getSubdicts Phi) S l i * (getSubdicts Phi i)ᵀ).trace) fun i => by rw [stepSigma_eq hP]; rfl]
    have hm : 0 < (m : ℝ) := by
      obtain ⟨i, _⟩ := Function.ne_iff.mp hy
      exact_mod_cast i.pos
    rw [Option.bind_some, Option.map_some, Option.bind_some, odiv, if_neg hm.ne']
    refine ⟨_, rfl, div_pos (add_pos_of_pos_of_nonneg (dot_self_pos ?_) (Finset.sum_nonneg fun i _ => ?_)) hm⟩
    · have hA := regGram_posDef (D := getSubdicts Phi) hP.psd hP.pos
      refine smul_ne_zero hP.pos.ne' fun h0 => hy ?_
      have := congrArg (fun v => regGram (getSubdicts Phi) S l *ᵥ v) h0
      simpa [mulVec_mulVec, posDef_mul_inv hA] using this
    · have hc := sigma_psd (D := getSubdicts Phi) hP.psd hP.pos i
      refine Finset.sum_nonneg fun r _ => ?_
      have : (getSubdicts Phi i * postCov (getSubdicts Phi) S l i * (getSubdicts Phi i)ᵀ).diag r =
          (getSubdicts Phi i r) ⬝ᵥ (postCov (getSubdicts Phi) S l i *ᵥ (getSubdicts Phi i r)) := by
        rw [Matrix.mul_assoc]
        rfl
      rw [this]
      exact hc.2 _

theorem valid_body (hp : 0 ≤ opt.pruneGamma) (hlearn : opt.learnLambda ≤ 0 ∨ opt.learnLambda = 1 ∧ y ≠ 0) (h : Valid opt s) (gammas : Fin nb → Option ℝ)
    (hg : ∀ i, activeBlocks opt.pruneGamma s.gammas i = false → activeBlocks opt.pruneGamma gammas i = false) : Valid opt (bsblBody Phi y opt s gammas) := by
  refine ⟨lambdaRule_pos hlearn h gammas, fun i g hgi hpg => ?_⟩
  have hgi : gammas i = some g := hgi
  have ha : activeBlocks opt.pruneGamma s.gammas i = true := by
    by_contra h'
    have := hg i (by simpa using h')
    rw [active_true.mpr ⟨g, hgi, hpg⟩] at this
    exact absurd this (by simp)
  obtain ⟨S, l, hP⟩ := h.exists_prior
  obtain ⟨r, hr, hB⟩ := stepB_eq (Phi := Phi) (y := y) hp hP i ha
  refine ⟨g • arMat b r, ?_, ?_⟩
  · show (gammas i).bind (fun g => (stepB Phi y opt s).map fun B => g • B) = _
    rw [hgi, hB]
    rfl
  · have hB := posDef_iff.mp (arMat_posDef (b := b) hr)
    refine posDef_iff.mpr ⟨by rw [transpose_smul, hB.1], fun v hv => ?_⟩
    rw [smul_mulVec, dotProduct_smul]
    exact mul_pos (lt_of_le_of_lt hp hpg) (hB.2 v hv)

theorem valid_init (hl : 0 < opt.lambdaVal) : Valid opt (bsblInit y opt : BsblState m nb b) :=
  ⟨⟨_, rfl, hl⟩, fun _ _ _ _ => ⟨1, rfl, Matrix.PosDef.one⟩⟩

theorem valid_em (hl : 0 < opt.lambdaVal) (hp : 0 ≤ opt.pruneGamma) (hlearn : opt.learnLambda ≤ 0 ∨ opt.learnLambda = 1 ∧ y ≠ 0) (h : BsblEmReach Phi y opt s) :
    Valid opt s :=
  h.inv (Valid opt) (valid_init hl) fun _ hv _ => valid_body hp hlearn hv _ fun _ hi => gammasEm_inactive hp hi

theorem valid_bo {svd : Svd b} (hl : 0 < opt.lambdaVal) (hp : 0 ≤ opt.pruneGamma) (hlearn : opt.learnLambda ≤ 0 ∨ opt.learnLambda = 1 ∧ y ≠ 0)
    (h : BsblBoReach svd Phi y opt s) : Valid opt s :=
  h.inv (Valid opt) (valid_init hl) fun _ hv _ => valid_body hp hlearn hv _ fun _ hi => gammasBo_inactive hp hi

end

/-- Specification: block `i` is active in the state `s`. -/
def IsActive (opt : BsblOptions) (s : BsblState m nb b) (i : Fin nb) : Prop := ∃ g, s.gammas i = some g ∧ opt.pruneGamma < g

section
variable (Phi : Matrix (Fin m) (Fin (nb * b)) ℝ) (y : Fin m → ℝ) (opt : BsblOptions)

theorem iterate_mean {s : BsblState m nb b} (hv : Valid opt s) :
    ∃ (S : Fin nb → Matrix (Fin b) (Fin b) ℝ) (l : ℝ) (x : Fin (nb * b) → ℝ), s.lam = some l ∧ 0 < l ∧ (∀ i, IsActive opt s i → s.sigma0 i = some (S i) ∧ (S i).PosDef) ∧
      xHat (stepMu Phi y opt s) = some x ∧ (∀ i, ¬ IsActive opt s i → blockOf x i = 0) ∧
      ∀ z, (∀ i, ¬ IsActive opt s i → blockOf z i = 0) → z ≠ x → mapObj Phi y S l (IsActive opt s) x < mapObj Phi y S l (IsActive opt s) z := by
  obtain ⟨S, l, hP⟩ := hv.exists_prior
  have hin : ∀ i, ¬ IsActive opt s i → S i = 0 := fun i hi => hP.inactive i (by rw [Bool.eq_false_iff]; exact fun h => hi (active_true.mp h))
  refine ⟨S, l, _, hP.lam, hP.pos, fun i hi => hP.active i (active_true.mpr hi), xHat_eq hP, fun i hi => ?_, fun z hz hne => ?_⟩
  · funext j
    show flatten2 _ (finProdFinEquiv (i, j)) = 0
    rw [flatten2_apply, postMean, hin i hi, zero_mulVec]
    rfl
  · exact postMean_min Phi y S l hP.pos (IsActive opt s) (fun i hi => (hP.active i (active_true.mpr hi)).2) hin z hz hne

/-- **C73.** Every iteration of `bsbl_em` returns the posterior mean for the current block covariances and noise variance: the unique minimiser of the regularised problem
among the vectors that vanish on the pruned blocks. -/
theorem c73_iterate_em (hl : 0 < opt.lambdaVal) (hp : 0 ≤ opt.pruneGamma) (hlearn : opt.learnLambda ≤ 0 ∨ opt.learnLambda = 1 ∧ y ≠ 0) (s : BsblState m nb b)
    (h : BsblEmReach Phi y opt s) :
    ∃ (S : Fin nb → Matrix (Fin b) (Fin b) ℝ) (l : ℝ) (x : Fin (nb * b) → ℝ), s.lam = some l ∧ 0 < l ∧ (∀ i, IsActive opt s i → s.sigma0 i = some (S i) ∧ (S i).PosDef) ∧
      xHat (bsblEmBody Phi y opt s).mu = some x ∧ (∀ i, ¬ IsActive opt s i → blockOf x i = 0) ∧
      ∀ z, (∀ i, ¬ IsActive opt s i → blockOf z i = 0) → z ≠ x → mapObj Phi y S l (IsActive opt s) x < mapObj Phi y S l (IsActive opt s) z :=
  iterate_mean Phi y opt (valid_em hl hp hlearn h)

/-- **C73.** The same for `bsbl_bo`, whatever singular value decomposition is used. -/
theorem c73_iterate_bo (svd : Svd b) (hl : 0 < opt.lambdaVal) (hp : 0 ≤ opt.pruneGamma) (hlearn : opt.learnLambda ≤ 0 ∨ opt.learnLambda = 1 ∧ y ≠ 0)
    (s : BsblState m nb b) (h : BsblBoReach svd Phi y opt s) :
    ∃ (S : Fin nb → Matrix (Fin b) (Fin b) ℝ) (l : ℝ) (x : Fin (nb * b) → ℝ), s.lam = some l ∧ 0 < l ∧ (∀ i, IsActive opt s i → s.sigma0 i = some (S i) ∧ (S i).PosDef) ∧
      xHat (bsblBoBody Phi y opt s svd).mu = some x ∧ (∀ i, ¬ IsActive opt s i → blockOf x i = 0) ∧
      ∀ z, (∀ i, ¬ IsActive opt s i → blockOf z i = 0) → z ≠ x → mapObj Phi y S l (IsActive opt s) x < mapObj Phi y S l (IsActive opt s) z :=
  iterate_mean Phi y opt (valid_bo hl hp hlearn h)

theorem stepMu_inactive {s : BsblState m nb b} {i : Fin nb} (hi : ¬ IsActive opt s i) : stepMu Phi y opt s i = some 0 := by
  have ha : activeBlocks opt.pruneGamma s.gammas i = false := by rw [Bool.eq_false_iff]; exact fun h => hi (active_true.mp h)
  unfold stepMu computeMuXPruned
  simp [ha]

/-- **C73.** A block pruned in some state, reachable or not, has mean zero after every later iteration of `bsbl_em` and stays pruned. -/
theorem c73_pruned_em (hp : 0 ≤ opt.pruneGamma) (s : BsblState m nb b) (i : Fin nb) (hi : ¬ IsActive opt s i) (k : ℕ) (hk : 0 < k) :
    ((bsblEmBody Phi y opt)^[k] s).mu i = some 0 ∧ ¬ IsActive opt ((bsblEmBody Phi y opt)^[k] s) i := by
  have hin : ∀ k, ¬ IsActive opt ((bsblEmBody Phi y opt)^[k] s) i := fun k => by
    induction k with
    | zero => exact hi
    | succ k ih =>
      rw [Function.iterate_succ_apply']
      have ha : activeBlocks opt.pruneGamma ((bsblEmBody Phi y opt)^[k] s).gammas i = false := by rw [Bool.eq_false_iff]; exact fun h => ih (active_true.mp h)
      exact fun h => absurd (active_true.mpr h) (Bool.eq_false_iff.mp (gammasEm_inactive hp ha))
  refine ⟨?_, hin k⟩
  obtain ⟨k, rfl⟩ := Nat.exists_eq_succ_of_ne_zero hk.ne'
  rw [Function.iterate_succ_apply']
  exact stepMu_inactive Phi y opt (hin k)

/-- **C73.** The same for `bsbl_bo`. -/
theorem c73_pruned_bo (svd : Svd b) (hp : 0 ≤ opt.pruneGamma) (s : BsblState m nb b) (i : Fin nb) (hi : ¬ IsActive opt s i) (k : ℕ) (hk : 0 < k) :
    ((fun s => bsblBoBody Phi y opt s svd)^[k] s).mu i = some 0 ∧ ¬ IsActive opt ((fun s => bsblBoBody Phi y opt s svd)^[k] s) i := by
  have hin : ∀ k, ¬ IsActive opt ((fun s => bsblBoBody Phi y opt s svd)^[k] s) i := fun k => by
    induction k with
    | zero => exact hi
    | succ k ih =>
      rw [Function.iterate_succ_apply']
      have ha : activeBlocks opt.pruneGamma ((fun s => bsblBoBody Phi y opt s svd)^[k] s).gammas i = false := by
        rw [Bool.eq_false_iff]
        exact fun h => ih (active_true.mp h)
      exact fun h => absurd (active_true.mpr h) (Bool.eq_false_iff.mp (gammasBo_inactive hp ha))
  refine ⟨?_, hin k⟩
  obtain ⟨k, rfl⟩ := Nat.exists_eq_succ_of_ne_zero hk.ne'
  rw [Function.iterate_succ_apply']
  exact stepMu_inactive Phi y opt (hin k)

/-! ## Finite values (C88) -/

theorem valid_mu {s : BsblState m nb b} (hv : Valid opt s) (gammas : Fin nb → Option ℝ) :
    ∃ x, xHat (bsblBody Phi y opt s gammas).mu = some x ∧ (bsblBody Phi y opt s gammas).r = some (y - Phi *ᵥ x) ∧
      (bsblBody Phi y opt s gammas).rNormSqr = some ((y - Phi *ᵥ x) ⬝ᵥ (y - Phi *ᵥ x)) := by
  obtain ⟨S, l, hP⟩ := hv.exists_prior
  refine ⟨_, xHat_eq hP, ?_, ?_⟩
  · show stepRes Phi y opt s = _
    rw [stepRes, xHat_eq hP, Option.map_some]
  · show (stepRes Phi y opt s).map _ = _
    rw [stepRes, xHat_eq hP, Option.map_some, Option.map_some]

theorem init_mu : ∃ x, xHat (bsblInit y opt : BsblState m nb b).mu = some x ∧ (bsblInit y opt : BsblState m nb b).r = some (y - Phi *ᵥ x) ∧
      (bsblInit y opt : BsblState m nb b).rNormSqr = some ((y - Phi *ᵥ x) ⬝ᵥ (y - Phi *ᵥ x)) := by
  have h : y - Phi *ᵥ flatten2 (0 : Fin nb → Fin b → ℝ) = y := by
    have : flatten2 (0 : Fin nb → Fin b → ℝ) = 0 := rfl
    rw [this, mulVec_zero, sub_zero]
  refine ⟨flatten2 0, ?_, ?_, ?_⟩
  · have : gather (bsblInit y opt : BsblState m nb b).mu = some (0 : Fin nb → Fin b → ℝ) := gather_some fun i => rfl
    rw [xHat, this, Option.map_some]
  · rw [h]; rfl
  · rw [h]; rfl

/-- **C88.** With a fixed or learned noise variance (`learn_lambda` 0 or 1), at every iteration of `bsbl_em` the solution is finite, the reported residual is that of the
solution, the noise variance is positive, the block scalars are finite and nonnegative, and the covariance of every active block is finite and positive definite. -/
theorem c88_finite_em (hb : 0 < b) (hl : 0 < opt.lambdaVal) (hp : 0 ≤ opt.pruneGamma) (hlearn : opt.learnLambda ≤ 0 ∨ opt.learnLambda = 1 ∧ y ≠ 0)
    (s : BsblState m nb b) (h : BsblEmReach Phi y opt s) :
    (∃ x, xHat s.mu = some x ∧ s.r = some (y - Phi *ᵥ x) ∧ s.rNormSqr = some ((y - Phi *ᵥ x) ⬝ᵥ (y - Phi *ᵥ x))) ∧ (∃ l, s.lam = some l ∧ 0 < l) ∧
      (∀ i, ∃ g, s.gammas i = some g ∧ 0 ≤ g) ∧ ∀ i, IsActive opt s i → ∃ S, s.sigma0 i = some S ∧ S.PosDef := by
  have hv := valid_em hl hp hlearn h
  refine ⟨?_, hv.lam, ?_, fun i ⟨g, h1, h2⟩ => hv.prior i g h1 h2⟩
  · cases h with
    | init => exact init_mu Phi y opt
    | step hr hc => exact valid_mu Phi y opt (valid_em hl hp hlearn hr) _
  · cases h with
    | init => exact fun i => ⟨1, rfl, zero_le_one⟩
    | step hr hc =>
      rename_i t
      intro i
      have hb' : (0 : ℝ) < b := by exact_mod_cast hb
      show ∃ g, gammasEm (stepCov Phi y opt t) ((stepB Phi y opt t).bind minv) (activeBlocks opt.pruneGamma t.gammas) i = some g ∧ 0 ≤ g
      unfold gammasEm
      obtain ⟨S, l, hP⟩ := (valid_em hl hp hlearn hr).exists_prior
      cases ha : activeBlocks opt.pruneGamma t.gammas i with
      | false =>
        simp only [Bool.false_eq_true, if_false, Option.bind_some, odiv, if_neg hb'.ne']
        exact ⟨_, rfl, by simp⟩
      | true =>
        obtain ⟨r, hr2, hB⟩ := stepB_eq (Phi := Phi) (y := y) hp hP i ha
        have hpd := arMat_posDef (b := b) hr2
        simp only [if_true, hB, Option.bind_some, stepCov_eq hP, minv_posDef hpd, Option.map_some, odiv, if_neg hb'.ne']
        exact ⟨_, rfl, div_nonneg (trace_mul_nonneg (posDef_psd hpd.inv) (covX_psd (sigma_psd hP.psd hP.pos i) _)) hb'.le⟩

/-- **C88.** The same for `bsbl_bo`, except that the scalar of a block may be not finite, in which case the block is pruned. -/
theorem c88_finite_bo (svd : Svd b) (hl : 0 < opt.lambdaVal) (hp : 0 ≤ opt.pruneGamma) (hlearn : opt.learnLambda ≤ 0 ∨ opt.learnLambda = 1 ∧ y ≠ 0)
    (s : BsblState m nb b) (h : BsblBoReach svd Phi y opt s) :
    (∃ x, xHat s.mu = some x ∧ s.r = some (y - Phi *ᵥ x) ∧ s.rNormSqr = some ((y - Phi *ᵥ x) ⬝ᵥ (y - Phi *ᵥ x))) ∧ (∃ l, s.lam = some l ∧ 0 < l) ∧
      ∀ i, IsActive opt s i → ∃ S, s.sigma0 i = some S ∧ S.PosDef := by
  have hv := valid_bo hl hp hlearn h
  refine ⟨?_, hv.lam, fun i ⟨g, h1, h2⟩ => hv.prior i g h1 h2⟩
  cases h with
  | init => exact init_mu Phi y opt
  | step hr hc => exact valid_mu Phi y opt (valid_bo hl hp hlearn hr) _

end

/-! ### Instances

Two blocks of two entries, three measurements; the correlated covariances are `[[2, 1], [1, 2]]` (positive definite) and the identity. -/

/-- The dictionary of the instances. -/
def exPhi : Matrix (Fin 3) (Fin (2 * 2)) ℝ := Matrix.of fun r k => (r : ℝ) + 2 * (k : ℝ) + 1

/-- Options `learn_lambda = 0`. -/
def exOpt : BsblOptions := ⟨1, 0, 1 / 1000, 1 / 10, 300, 1 / 1000⟩

theorem exOpt_lam : 0 < exOpt.lambdaVal := by norm_num [exOpt]
theorem exOpt_prune : 0 ≤ exOpt.pruneGamma := by norm_num [exOpt]

theorem exOpt_cond (y : Fin 3 → ℝ) : bsblCond exOpt (bsblInit y exOpt : BsblState 3 2 2) := ⟨⟨1, rfl, by norm_num [exOpt]⟩, by norm_num [bsblInit, exOpt]⟩

example := c73_gram_pruned exPhi (fun _ => 1) ![some 1, none] ![true, false] (by
  intro i
  fin_cases i <;> simp)

example := c73_mean exPhi ![1, 2, 4] (fun i => (i.1 + 2 : ℝ) • 1) (fun i => Matrix.PosDef.one.smul (by positivity)) (1 / 10) (by norm_num)

example := c73_covariance exPhi (fun i => (i.1 + 2 : ℝ) • 1) (fun i => Matrix.PosDef.one.smul (by positivity)) (1 / 10) (by norm_num) 1

example := c73_second_moment_fails (b := 2) (by norm_num) 1

example := c73_iterate_em exPhi ![1, 2, 4] exOpt exOpt_lam exOpt_prune (Or.inl le_rfl) _ (Reach.step .init (exOpt_cond _))

example (svd : Svd 2) := c73_iterate_bo exPhi ![1, 2, 4] exOpt svd exOpt_lam exOpt_prune (Or.inl le_rfl) _ (Reach.step .init (exOpt_cond _))

example := c73_pruned_em exPhi ![1, 2, 4] exOpt exOpt_prune { (bsblInit ![1, 2, 4] exOpt : BsblState 3 2 2) with gammas := ![some 0, some 1] } 0
  (by rintro ⟨g, hg, hp⟩
      have : g = 0 := (Option.some.inj hg).symm
      rw [this] at hp
      norm_num [exOpt] at hp) 5 (by norm_num)

example (svd : Svd 2) := c73_pruned_bo exPhi ![1, 2, 4] exOpt svd exOpt_prune { (bsblInit ![1, 2, 4] exOpt : BsblState 3 2 2) with gammas := ![some 0, some 1] } 0
  (by rintro ⟨g, hg, hp⟩
      have : g = 0 := (Option.some.inj hg).symm
      rw [this] at hp
      norm_num [exOpt] at hp) 5 (by norm_num)

example := c88_finite_em exPhi ![1, 2, 4] exOpt (by norm_num) exOpt_lam exOpt_prune (Or.inl le_rfl) _ (Reach.step .init (exOpt_cond _))

example (svd : Svd 2) := c88_finite_bo exPhi ![1, 2, 4] exOpt svd exOpt_lam exOpt_prune (Or.inl le_rfl) _ (Reach.step .init (exOpt_cond _))

end Verif.Block
