import Verif.Problems.Model
import Verif.Lop.FourierProps
import Verif.Lop.CosineProps
import Verif.Lop.StructProps
import Mathlib.Data.List.GetD

set_option autoImplicit false

/-!
# C78: the test problems are self-consistent
-/
noncomputable section
namespace Verif.Problems
open Verif.Lop

/-- Specification (problems/spec.py:33-45): the recorded representation `x` and the signal `y` satisfy `y = Ψ x`,
`b = Φ y`, `b = A x`, `A = Φ Ψ` as a map with matching shape, and `reconstruct` recovers `y`.  A recorded `y` is the
signal. -/
structure Consistent {R : Type*} (P : Problem R) (x y : List R) : Prop where
  x_recorded : P.x = some x
  y_recorded : ∀ y', P.y = some y' → y' = y
  shape_A : P.A.shape = (P.Phi.shape.1, P.Psi.shape.2)
  x_length : x.length = P.A.shape.2
  y_length : y.length = P.Phi.shape.2
  A_eq : ∀ v, v.length = P.Psi.shape.2 → P.A.times v = P.Phi.times (P.Psi.times v)
  signal : P.Psi.times x = y
  observed : P.A.times x = P.b
  reconstruct : P.reconstruct x = y

theorem vadd_comm' {R : Type*} [CommRing R] (x y : List R) : vadd x y = vadd y x := by
  unfold vadd; rw [List.zipWith_comm]; simp only [add_comm]

theorem identity_times {R : Type*} [CommRing R] [StarRing R] (n : ℕ) (x : List R) :
    (identity (R := R) n n).times x = x := by simp [identity]

theorem identity_shape {R : Type*} [CommRing R] [StarRing R] (n : ℕ) : (identity (R := R) n n).shape = (n, n) := by
  simp [identity]

@[simp] theorem length_toC (x : List ℝ) : (toC x).length = x.length := by simp [toC]

@[simp] theorem length_vadd' {R : Type*} [CommRing R] (x y : List R) : (vadd x y).length = min x.length y.length := by
  simp [vadd]

/-- C78 (problem 001): for every `n ≥ 1` the generated problem is consistent, with the signal `sine + jumps`. -/
theorem c78_prob001 (n : ℕ) (hn : 0 < n) :
    ∃ P x, prob001 n = some P ∧ Consistent P x (vadd (toC (sigSine n)) (toC (sigJump n))) := by
  have hl1 : (toC (sigSine n)).length = n := by simp [sigSine]
  have hl2 : (toC (sigJump n)).length = n := by simp [sigJump]
  have hf := c14_fourier_unitary n hn
  have hx0 : ((fourierBasis n).trans (toC (sigSine n))).length = n := hf.1.trans_length _ hl1
  have hx1 : ((invHeaviside (𝕜 := ℂ) n true).times (toC (sigJump n))).length = n :=
    (c04_heaviside_adjoint (𝕜 := ℂ) n hn true).2.times_length _ hl2
  have hh := (c04_heaviside_inverse (𝕜 := ℂ) n true _ hl2).2
  have hs : (fourierBasis n).shape = (n, n) := rfl
  have hs' : (heaviside (𝕜 := ℂ) n true).shape = (n, n) := rfl
  unfold prob001 hcat
  rw [if_pos (by rw [hs, hs'])]
  refine ⟨_, (fourierBasis n).trans (toC (sigSine n)) ++ (invHeaviside n true).times (toC (sigJump n)), rfl, ?_⟩
  have key : vadd ((fourierBasis n).times (((fourierBasis n).trans (toC (sigSine n)) ++
      (invHeaviside (𝕜 := ℂ) n true).times (toC (sigJump n))).take n))
      ((heaviside n true).times (((fourierBasis n).trans (toC (sigSine n)) ++
      (invHeaviside (𝕜 := ℂ) n true).times (toC (sigJump n))).drop n)) =
      vadd (toC (sigSine n)) (toC (sigJump n)) := by
    rw [List.take_left' hx0, List.drop_left' hx0, hf.2.2.1 _ hl1, hh]
  refine ⟨rfl, fun y h => (by cases h), ?_, ?_, ?_, ?_, key, key, ?_⟩
  · simp [identity_shape, hs, hs']
  · simp [hx0, hx1, hs, hs']
  · simp [identity_shape, hl1, hl2]
  · intro v _; simp [identity_times]
  · show toC ((vadd _ _).map Complex.re) = _
    simp only [hs]
    rw [key]
    simp [toC, vadd, List.map_zipWith, List.zipWith_map]

example : ∃ P x, prob001 7 = some P ∧ Consistent P x (vadd (toC (sigSine 7)) (toC (sigJump 7))) := c78_prob001 7 (by norm_num)

theorem dwtBasis_spec {D : List ℝ → List ℝ × List ℝ} {S : List ℝ → List ℝ → List ℝ} (h : OneLevel D S)
    (max_level n level : ℕ) (hlev : 1 ≤ level) (hmax : level ≤ max_level) (hdiv : 2 ^ level ∣ nextPow2 n) :
    ∃ T, dwtBasis D S max_level n level = some T ∧ T.shape = (n, nextPow2 n) ∧ T.jit_safe = true ∧
      (∀ y, y.length = n → T.times (T.trans y) = y ∧ (T.trans y).length = nextPow2 n) := by
  obtain ⟨T, hT, hsh, hinv, hadj, -⟩ := (c20_dwt D S h max_level n level hlev hdiv).2 hmax
  refine ⟨_, by rw [dwtBasis, hT]; rfl, by simp [hsh], rfl, fun y hy => ⟨hinv y hy, hadj.times_length y hy⟩⟩

/-- C78 (problem 002): for every signal `b` and every orthonormal one-level transform the problem is consistent, as
soon as five levels are possible. -/
theorem c78_prob002 (D : List ℝ → List ℝ × List ℝ) (S : List ℝ → List ℝ → List ℝ) (h : OneLevel D S)
    (max_level n : ℕ) (hmax : 5 ≤ max_level) (hdiv : 2 ^ 5 ∣ nextPow2 n) (b : List ℝ) (hb : b.length = n) :
    ∃ P x, prob002 D S max_level n b = some P ∧ Consistent P x b ∧ P.b = b := by
  obtain ⟨T, hT, hsh, -, hinv⟩ := dwtBasis_spec h max_level n 5 (by norm_num) hmax hdiv
  refine ⟨_, T.trans b, by rw [prob002, hT]; rfl, ⟨rfl, fun y h => (by cases h), ?_, ?_, ?_, ?_, ?_, ?_, ?_⟩, rfl⟩
  · simp [identity_shape, hsh]
  · simp [hsh, (hinv b hb).2]
  · simp [identity_shape, hb]
  · intro v _; simp [identity_times]
  · exact (hinv b hb).1
  · exact (hinv b hb).1
  · exact (hinv b hb).1

@[simp] theorem length_spikesOf {R : Type*} [CommRing R] [StarRing R] (n : ℕ) (I : List ℕ) (v : List R) :
    (spikesOf n I v).length = n := by simp [spikesOf]

@[simp] theorem length_coeffsOf {R : Type*} [CommRing R] [StarRing R] (n : ℕ) (s : R) (I : List ℕ) (v : List R) :
    (coeffsOf n s I v).length = n := by simp [coeffsOf]

/-- The dictionary `[I, B]` applied to `[spikes; coeffs]`. -/
theorem dirac_pair {R : Type*} [CommRing R] [StarRing R] (n : ℕ) (B : Op R) (hB : B.shape = (n, n)) (hj : B.jit_safe = true) :
    ∃ h T, hcat (identity n n) B = some h ∧ jit h = some T ∧ T.shape = (n, n + n) ∧
      ∀ s c : List R, s.length = n → c.length = n → T.times (s ++ c) = vadd (B.times c) s := by
  unfold hcat
  rw [if_pos (by simp [identity_shape, hB])]
  refine ⟨_, _, rfl, by rw [jit, if_pos]; simp [hj, identity], by simp [identity_shape, hB], fun s c hs hc => ?_⟩
  simp only [identity_shape, identity_times]
  rw [List.take_left' hs, List.drop_left' hs, vadd_comm']

/-- C78 (problem 003): for every `n ≥ 1` and every draw. -/
theorem c78_prob003 (n : ℕ) (hn : 0 < n) (ci : List ℕ) (cv : List ℝ) (si : List ℕ) (sv : List ℝ) :
    ∃ P, prob003 n ci cv si sv = some P ∧
      Consistent P (spikesOf n si sv ++ coeffsOf n (Real.sqrt (n / 2)) ci cv)
        (vadd ((cosineBasis n).times (coeffsOf n (Real.sqrt (n / 2)) ci cv)) (spikesOf n si sv)) := by
  obtain ⟨h, T, h1, h2, hsh, ht⟩ := dirac_pair n (cosineBasis n) rfl rfl
  have hl := (c17_cosine_orthonormal n hn).2.1.times_length (coeffsOf n (Real.sqrt (n / 2)) ci cv) (by simp)
  refine ⟨_, by rw [prob003, h1, Option.bind_some, h2]; rfl, rfl, fun y h => (by cases h), ?_, ?_, ?_, ?_, ?_, ?_, ?_⟩
  · simp [identity_shape, hsh]
  · simp [hsh]
  · rw [length_vadd', hl, length_spikesOf, min_self, identity_shape]
  · intro v _; simp [identity_times]
  all_goals exact ht _ _ (by simp) (by simp)

example : ∃ P, prob003 4 [1] [0.5] [0, 2] [1, -1] = some P := (c78_prob003 4 (by norm_num) _ _ _ _).imp fun _ h => h.1

/-- C78 (problem 004): the complex analogue with the Fourier basis; the recorded `y` is the signal. -/
theorem c78_prob004 (n : ℕ) (hn : 0 < n) (ci : List ℕ) (cv : List ℂ) (si : List ℕ) (sv : List ℂ) :
    ∃ P, prob004 n ci cv si sv = some P ∧ P.y.isSome = true ∧
      Consistent P (spikesOf n si sv ++ coeffsOf n ((Real.sqrt (n / 2) : ℝ) : ℂ) ci cv)
        (vadd ((fourierBasis n).times (coeffsOf n ((Real.sqrt (n / 2) : ℝ) : ℂ) ci cv)) (spikesOf n si sv)) := by
  obtain ⟨h, T, h1, h2, hsh, ht⟩ := dirac_pair n (fourierBasis n) rfl rfl
  have hl := (c14_fourier_unitary n hn).1.times_length (coeffsOf n ((Real.sqrt (n / 2) : ℝ) : ℂ) ci cv) (by simp)
  refine ⟨_, by rw [prob004, h1, Option.bind_some, h2]; rfl, rfl, rfl, fun y h => (by cases h; rfl), ?_, ?_, ?_, ?_, ?_, ?_, ?_⟩
  · simp [identity_shape, hsh]
  · simp [hsh]
  · rw [length_vadd', hl, length_spikesOf, min_self, identity_shape]
  · intro v _; simp [identity_times]
  all_goals exact ht _ _ (by simp) (by simp)

/-- C78 (problem 005): both operators are non-trivial; `A` is their composition. -/
theorem c78_prob005 (m n : ℕ) (hn : 0 < n) (ci : List ℕ) (cv : List ℝ) (si : List ℕ) (sv : List ℝ) (g : ℕ → ℕ → ℝ) :
    ∃ P, prob005 m n ci cv si sv g = some P ∧ P.y.isSome = true ∧ P.A.shape = (m, 2 * n) ∧
      Consistent P (spikesOf n si sv ++ coeffsOf n (Real.sqrt (n / 2)) ci cv)
        (vadd ((cosineBasis n).times (coeffsOf n (Real.sqrt (n / 2)) ci cv)) (spikesOf n si sv)) := by
  obtain ⟨h, T, h1, h2, hsh, ht⟩ := dirac_pair n (cosineBasis n) rfl rfl
  have hl := (c17_cosine_orthonormal n hn).2.1.times_length (coeffsOf n (Real.sqrt (n / 2)) ci cv) (by simp)
  have hc : compose (gaussianDict m n g) T = some { times := fun x => (gaussianDict m n g).times (T.times x), trans := fun x => T.trans ((gaussianDict m n g).trans x), shape := (m, n + n), real := true && T.real } := by
    rw [compose, if_pos (by simp [hsh, gaussianDict, matrix])]
    simp [hsh, gaussianDict, matrix]
  have hx := ht (spikesOf n si sv) (coeffsOf n (Real.sqrt (n / 2)) ci cv) (by simp) (by simp)
  refine ⟨_, by rw [prob005, h1, Option.bind_some, h2, Option.bind_some]; simp only []; rw [hc]; rfl, rfl, by simp [two_mul], rfl,
    fun y h => (by cases h; rfl), ?_, ?_, ?_, ?_, hx, ?_, hx⟩
  · simp [hsh, gaussianDict, matrix]
  · simp
  · rw [length_vadd', hl, length_spikesOf, min_self]; rfl
  · intro v _; rfl
  · exact congrArg (gaussianDict m n g).times hx

/-- C78 (problem 006): wavelet coefficients of an arbitrary signal, observed through a Gaussian matrix. -/
theorem c78_prob006 (D : List ℝ → List ℝ × List ℝ) (S : List ℝ → List ℝ → List ℝ) (h : OneLevel D S)
    (max_level m n level : ℕ) (hlev : 1 ≤ level) (hmax : level ≤ max_level) (hdiv : 2 ^ level ∣ nextPow2 n)
    (y : List ℝ) (hy : y.length = n) (g : ℕ → ℕ → ℝ) :
    ∃ P x, prob006 D S max_level m n level y g = some P ∧ P.y = some y ∧ Consistent P x y ∧ P.b = matVec m n g y := by
  obtain ⟨T0, hT, hsh, hj, hinv⟩ := dwtBasis_spec h max_level n level hlev hmax hdiv
  obtain ⟨T, hT', e1, e2, e3⟩ : ∃ T, jit T0 = some T ∧ T.times = T0.times ∧ T.trans = T0.trans ∧ T.shape = T0.shape := by
    unfold jit; rw [if_pos hj]; exact ⟨_, rfl, rfl, rfl, rfl⟩
  have hc : compose (gaussianDict m n g) T = some { times := fun x => (gaussianDict m n g).times (T.times x), trans := fun x => T.trans ((gaussianDict m n g).trans x), shape := (m, nextPow2 n), real := true && T.real } := by
    rw [compose, if_pos (by simp [e3, hsh, gaussianDict, matrix])]
    simp [e3, hsh, gaussianDict, matrix]
  have hx : T.times (T.trans y) = y := by rw [e1, e2]; exact (hinv y hy).1
  refine ⟨_, T.trans y, by rw [prob006, hT, Option.bind_some, hT', Option.bind_some]; simp only []; rw [hc]; rfl, rfl, ⟨rfl,
    fun y h => (by cases h; rfl), ?_, ?_, ?_, ?_, hx, ?_, hx⟩, rfl⟩
  · simp [e3, hsh, gaussianDict, matrix]
  · simp [e2, (hinv y hy).2]
  · simp [gaussianDict, matrix, hy]
  · intro v _; rfl
  · exact congrArg (gaussianDict m n g).times hx

/-- Non-vacuity of 002 and 006: the Haar transform (a rotation by 45°), `n = 32`. -/
example : ∃ P x, prob002 (rotD (3 / 5) (4 / 5)) (rotS (3 / 5) (4 / 5)) 5 32 (List.replicate 32 1) = some P ∧
    Consistent P x (List.replicate 32 1) ∧ P.b = List.replicate 32 1 :=
  c78_prob002 _ _ (rot_oneLevel _ _ (by simp) (by simp) (by norm_num)) 5 32 le_rfl (by simp [nextPow2]; decide) _ (by simp)

/-- C78 (problems 007, 008, 011): spikes observed through a Gaussian matrix. -/
theorem c78_spikes (m n : ℕ) (normals rn im : List ℝ) (indices : List ℕ) (g : ℕ → ℕ → ℝ) (gc : ℕ → ℕ → ℂ) :
    (∃ x, Consistent (prob007 m n normals indices g) x x ∧ (prob007 m n normals indices g).y = some x ∧
      (prob007 m n normals indices g).b = matVec m n g x) ∧
    (∃ x, Consistent (prob008 m n rn im indices gc) x x ∧ (prob008 m n rn im indices gc).b = matVec m n gc x) ∧
    (∃ x, Consistent (prob011 m n normals indices g) x x ∧ (prob011 m n normals indices g).b = matVec m n g x) := by
  refine ⟨⟨spikesOf n indices (normals.map Real.sign), ⟨rfl, fun y h => (by cases h; rfl), ?_, ?_, ?_, ?_, ?_, ?_, rfl⟩, rfl, rfl⟩,
    ⟨spikesOf n indices (List.zipWith (fun r i : ℝ => ((Real.sign r : ℝ) : ℂ) + Complex.I * (Real.sign i : ℝ)) rn im), ⟨rfl, fun y h => (by cases h), ?_, ?_, ?_, ?_, ?_, ?_, rfl⟩, rfl⟩,
    ⟨spikesOf n indices normals, ⟨rfl, fun y h => (by cases h), ?_, ?_, ?_, ?_, ?_, ?_, rfl⟩, rfl⟩⟩ <;>
  simp [prob007, prob008, prob011, identity_shape, identity_times, gaussianDict, matrix]

/-- C78 (problems 009, 010): Heaviside coefficients of an arbitrary signal. -/
theorem c78_heaviside (n : ℕ) (hn : 0 < n) (b : List ℝ) (hb : b.length = n) :
    (∃ x, Consistent (prob009 n b) x b ∧ (prob009 n b).b = b) ∧ (∃ x, Consistent (prob010 n b) x b ∧ (prob010 n b).b = b) := by
  have key : ∀ (nm : String) (q : Bool), ∃ x, Consistent (probHeavi nm q n b) x b ∧ (probHeavi nm q n b).b = b := by
    intro nm q
    have hh := (c04_heaviside_inverse (𝕜 := ℝ) n q b hb).2
    have hl := (c04_heaviside_adjoint (𝕜 := ℝ) n hn q).2.times_length b hb
    refine ⟨(invHeaviside n q).times b, ⟨rfl, fun y h => (by cases h), ?_, ?_, ?_, ?_, hh, hh, hh⟩, rfl⟩
    · simp [probHeavi, identity_shape, heaviside]
    · simp [probHeavi, heaviside, hl]
    · simp [probHeavi, identity_shape, hb]
    · intro v _; simp [probHeavi, identity_times]
  exact ⟨key _ _, key _ _⟩

example : ∃ x, Consistent (prob009 3 [1, 1, 4]) x [1, 1, 4] := (c78_heaviside 3 (by norm_num) _ rfl).1.imp fun _ h => h.1

/-- Entries of the spike vectors: the drawn value at a drawn position, 0 elsewhere. -/
theorem ent_spikesOf {R : Type*} [CommRing R] [StarRing R] (n : ℕ) (I : List ℕ) (v : List R) (hnd : I.Nodup)
    (hlt : ∀ i ∈ I, i < n) (hlen : I.length = v.length) :
    (∀ i, i ∉ I → ent (spikesOf n I v) i = 0) ∧ (∀ k, k < I.length → ent (spikesOf n I v) (I.getD k 0) = ent v k) := by
  constructor
  · intro i hi
    rw [spikesOf, ent_scatterSet_of_notMem hi]; simp [ent, List.getD_eq_getElem?_getD, List.getElem?_replicate]; split <;> rfl
  · intro k hk
    refine ent_scatterSet_of_nodup hnd hlen hk ?_
    rw [List.length_replicate]
    exact hlt _ (by rw [List.getD_eq_getElem _ _ hk]; exact List.getElem_mem hk)

/-- C78 (sparsity of 007): with distinct positions and non-zero normal draws the representation is `±1` exactly at the
drawn positions and 0 elsewhere. -/
theorem c78_signed_spikes (m n : ℕ) (normals : List ℝ) (indices : List ℕ) (g : ℕ → ℕ → ℝ) (hnd : indices.Nodup)
    (hlt : ∀ i ∈ indices, i < n) (hlen : indices.length = normals.length) (hnz : ∀ a ∈ normals, a ≠ 0) :
    ∃ x, (prob007 m n normals indices g).x = some x ∧
      ∀ i, (i ∈ indices → ent x i = 1 ∨ ent x i = -1) ∧ (i ∉ indices → ent x i = 0) := by
  refine ⟨_, rfl, fun i => ⟨fun hi => ?_, fun hi => ?_⟩⟩
  · obtain ⟨k, hk, rfl⟩ := List.mem_iff_getElem.mp hi
    have := (ent_spikesOf n indices (normals.map Real.sign) hnd hlt (by simpa using hlen)).2 k hk
    rw [List.getD_eq_getElem _ _ hk] at this
    rw [this]
    have hk' : k < normals.length := by omega
    have : ent (normals.map Real.sign) k = Real.sign normals[k] := by simp [ent, List.getD_eq_getElem?_getD, hk']
    rw [this]
    exact (Real.sign_apply_eq_of_ne_zero _ (hnz _ (List.getElem_mem hk'))).symm
  · exact (ent_spikesOf n indices (normals.map Real.sign) hnd hlt (by simpa using hlen)).1 i hi

example : ∃ x, (prob007 1 3 [0.3, -2] [2, 0] (fun _ _ => 1)).x = some x ∧
    ∀ i, (i ∈ [2, 0] → ent x i = 1 ∨ ent x i = -1) ∧ (i ∉ [2, 0] → ent x i = 0) :=
  c78_signed_spikes 1 3 _ _ _ (by decide) (by decide) rfl (by intro a ha; simp at ha; rcases ha with rfl | rfl <;> norm_num)

/-- C78 (the catalogue): `names` lists exactly the names `generate` accepts, in sorted order without repetition, and
every generated problem carries the name it was asked for. -/
theorem c78_names :
    (∀ nm, nm ∈ names ↔ (generateModule nm).isSome) ∧ names.Nodup ∧ names.Pairwise (· ≤ ·) ∧
    (∀ (n : ℕ) P, prob001 n = some P → generateModule P.name = some "prob001") ∧
    (∀ D S ml n b P, prob002 D S ml n b = some P → generateModule P.name = some "prob002") ∧
    (∀ n a b c d P, prob003 n a b c d = some P → generateModule P.name = some "prob003") ∧
    (∀ n a b c d P, prob004 n a b c d = some P → generateModule P.name = some "prob004") ∧
    (∀ m n a b c d g P, prob005 m n a b c d g = some P → generateModule P.name = some "prob005") ∧
    (∀ D S ml m n lv y g P, prob006 D S ml m n lv y g = some P → generateModule P.name = some "prob006") ∧
    (∀ m n a b g, generateModule (prob007 m n a b g).name = some "prob007") ∧
    (∀ m n a b c g, generateModule (prob008 m n a b c g).name = some "prob008") ∧
    (∀ n b, generateModule (prob009 n b).name = some "prob009") ∧
    (∀ n b, generateModule (prob010 n b).name = some "prob010") ∧
    (∀ m n a b g, generateModule (prob011 m n a b g).name = some "prob011") := by
  have h1 : generateModule "heavi-sine:fourier:heavi-side" = some "prob001" := by decide
  have h2 : generateModule "blocks:haar" = some "prob002" := by decide
  have h3 : generateModule "cosine-spikes:dirac-dct" = some "prob003" := by decide
  have h4 : generateModule "complex:sinusoid-spikes:dirac-fourier" = some "prob004" := by decide
  have h5 : generateModule "cosine-spikes:dirac-dct:gaussian" = some "prob005" := by decide
  have h6 : generateModule "piecewise-cubic-poly:daubechies:gaussian" = some "prob006" := by decide
  have h7 : generateModule "signed-spikes:dirac:gaussian" = some "prob007" := by decide
  have h8 : generateModule "complex:signed-spikes:dirac:gaussian" = some "prob008" := by decide
  have h9 : generateModule "blocks:heavi-side" = some "prob009" := by decide
  have h10 : generateModule "blocks:normalized-heavi-side" = some "prob010" := by decide
  have h11 : generateModule "gaussian-spikes:dirac:gaussian" = some "prob011" := by decide
  have hperm : names.Perm (problemMap.map Prod.fst) := List.mergeSort_perm _ _
  refine ⟨fun nm => ?_, ?_, ?_, ?_, ?_, ?_, ?_, ?_, ?_, fun _ _ _ _ _ => h7, fun _ _ _ _ _ _ => h8, fun _ _ => h9,
    fun _ _ => h10, fun _ _ _ _ _ => h11⟩
  · rw [hperm.mem_iff, generateModule]
    simp [List.lookup_isSome_iff]
  · exact hperm.nodup_iff.mpr (by decide)
  · have := List.pairwise_mergeSort (le := fun a b : String => decide (a ≤ b)) (by intro a b c h1 h2; simp only [decide_eq_true_eq] at *; exact String.le_trans h1 h2) (by intro a b; simpa using String.le_total a b) (problemMap.map Prod.fst)
    exact this.imp (by simp)
  · intro n P h; simp only [prob001, Option.map_eq_some_iff] at h; obtain ⟨_, -, rfl⟩ := h; exact h1
  · intro D S ml n b P h; simp only [prob002, Option.map_eq_some_iff] at h; obtain ⟨_, -, rfl⟩ := h; exact h2
  · intro n a b c d P h; simp only [prob003, Option.map_eq_some_iff, Option.bind_eq_some_iff] at h; obtain ⟨_, -, _, -, rfl⟩ := h; exact h3
  · intro n a b c d P h; simp only [prob004, Option.map_eq_some_iff, Option.bind_eq_some_iff] at h; obtain ⟨_, -, _, -, rfl⟩ := h; exact h4
  · intro m n a b c d g P h; simp only [prob005, Option.map_eq_some_iff, Option.bind_eq_some_iff] at h; obtain ⟨_, -, _, -, _, -, rfl⟩ := h; exact h5
  · intro D S ml m n lv y g P h; simp only [prob006, Option.map_eq_some_iff, Option.bind_eq_some_iff] at h; obtain ⟨_, -, _, -, _, -, rfl⟩ := h; exact h6

example := c78_prob005 6 16 (by norm_num) [1] [0.5] [0, 2] [1, -1] (fun i j => i + j)
example := c78_prob006 _ _ (rot_oneLevel (3 / 5) (4 / 5) (by simp) (by simp) (by norm_num)) 5 8 32 5 (by norm_num) le_rfl (by simp [nextPow2]; decide)
  (List.replicate 32 1) (by simp) (fun i j => i + j)

end Verif.Problems
