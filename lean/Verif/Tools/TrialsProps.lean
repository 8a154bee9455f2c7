import Verif.Tools.TrialsModel
import Mathlib.Tactic.Ring
import Mathlib.Tactic.Linarith
import Mathlib.Tactic.FieldSimp
import Mathlib.Algebra.Order.Field.Basic
import Mathlib.Algebra.Order.Field.Rat
import Mathlib.Algebra.BigOperators.Group.List.Basic
import Mathlib.Data.Nat.Pairing

set_option autoImplicit false
/-!
# Properties of the recovery experiment (C106)
-/
namespace Verif.Tools.Trials

variable {Key Solver : Type}

/-! ## Specification -/

/-- `r` summarises the results (success flag, iteration count) of the runs of solver `s` at sparsity level `k`. -/
structure IsSummary (r : Row Solver) (s : Solver) (k : ℕ) (results : List (Bool × ℕ)) : Prop where
  method : r.method = s
  level : r.k = k
  trials : r.trials = results.length
  successes : r.successes = (results.filter fun p => p.1).length
  failures : r.failures = (results.filter fun p => !p.1).length
  rate : r.successRate * r.trials = r.successes
  rate_bounds : 0 ≤ r.successRate ∧ r.successRate ≤ 1
  min_iters : (∃ p ∈ results, p.2 = r.minIters) ∧ ∀ p ∈ results, r.minIters ≤ p.2
  max_iters : (∃ p ∈ results, p.2 = r.maxIters) ∧ ∀ p ∈ results, p.2 ≤ r.maxIters
  mean_iters : r.meanIters * results.length = ((results.map fun p => p.2).sum : ℕ)
  mean_bounds : (r.minIters : ℚ) ≤ r.meanIters ∧ r.meanIters ≤ r.maxIters

/-- The key of level `i`: the seed advanced `i + 1` times. -/
def levelKey (e : Setup Key Solver) (i : ℕ) : Key := (nextKey e)^[i + 1] e.seed

/-- The pairs (dictionary key, signal key) of the trials of a level with the given key: `D` dictionaries with `S` signals each. -/
def instancesAt (e : Setup Key Solver) (key : Key) : List (Key × Key) :=
  (List.range e.numDictTrials).flatMap fun d =>
    (List.range e.numSignalTrials).map fun j =>
      (e.split key e.numDictTrials d, signalKey e (e.split key e.numDictTrials d) j)

/-- The instances of level `i`.  No solver occurs in them. -/
def instances (e : Setup Key Solver) (i : ℕ) : List (Key × Key) := instancesAt e (levelKey e i)

/-! ## The accumulators -/

theorem signal_fold (e : Setup Key Solver) (s : Solver) (k : ℕ) (dk : Key) (l : List ℕ) (a : Acc Key) :
    l.foldl (signalStep e s k dk) a =
      { trials := a.trials + l.length
        successes := a.successes + ((l.map fun j => e.trial s k dk (signalKey e dk j)).filter fun p => p.1).length
        iters := a.iters ++ l.map fun j => (e.trial s k dk (signalKey e dk j)).2
        calls := a.calls ++ l.map fun j => (dk, signalKey e dk j) } := by
  induction l generalizing a with
  | nil => simp
  | cons j l ih =>
    rw [List.foldl_cons, ih]
    simp only [signalStep, List.map_cons, List.filter_cons, List.length_cons, List.append_assoc, List.cons_append, List.nil_append]
    congr 1
    · ring
    · split_ifs <;> simp <;> ring

theorem dict_fold (e : Setup Key Solver) (s : Solver) (k : ℕ) (key : Key) (l : List ℕ) (a : Acc Key) :
    let I := l.flatMap fun d => (List.range e.numSignalTrials).map fun j =>
      (e.split key e.numDictTrials d, signalKey e (e.split key e.numDictTrials d) j)
    l.foldl (dictStep e s k key) a =
      { trials := a.trials + I.length
        successes := a.successes + ((I.map fun p => e.trial s k p.1 p.2).filter fun p => p.1).length
        iters := a.iters ++ I.map fun p => (e.trial s k p.1 p.2).2
        calls := a.calls ++ I } := by
  induction l generalizing a with
  | nil => simp
  | cons d l ih =>
    simp only [] at ih ⊢
    rw [List.foldl_cons, ih]
    simp only [dictStep, signal_fold, List.flatMap_cons, List.map_append, List.filter_append, List.length_append, List.append_assoc,
      List.length_map, List.length_range, List.map_map]
    congr 1
    · ring
    · rw [add_assoc]; rfl

theorem levelAcc_eq (e : Setup Key Solver) (s : Solver) (k : ℕ) (key : Key) :
    levelAcc e s k key =
      { trials := (instancesAt e key).length
        successes := (((instancesAt e key).map fun p => e.trial s k p.1 p.2).filter fun p => p.1).length
        iters := (instancesAt e key).map fun p => (e.trial s k p.1 p.2).2
        calls := instancesAt e key } := by
  unfold levelAcc
  rw [dict_fold]
  simp [instancesAt]

theorem instancesAt_length (e : Setup Key Solver) (key : Key) :
    (instancesAt e key).length = e.numDictTrials * e.numSignalTrials := by
  unfold instancesAt
  rw [List.length_flatMap]
  simp

theorem foldl_min (l : List ℕ) (a : ℕ) : (l.foldl min a = a ∨ l.foldl min a ∈ l) ∧ l.foldl min a ≤ a ∧ ∀ x ∈ l, l.foldl min a ≤ x := by
  induction l generalizing a with
  | nil => simp
  | cons y l ih =>
    obtain ⟨h1, h2, h3⟩ := ih (min a y)
    rw [List.foldl_cons]
    refine ⟨?_, h2.trans (min_le_left _ _), ?_⟩
    · rcases h1 with h1 | h1
      · rw [h1]; rcases min_choice a y with h | h <;> simp [h]
      · right; exact List.mem_cons_of_mem _ h1
    · intro x hx
      rcases List.mem_cons.1 hx with rfl | hx
      · exact h2.trans (min_le_right _ _)
      · exact h3 x hx

theorem foldl_max (l : List ℕ) (a : ℕ) : (l.foldl max a = a ∨ l.foldl max a ∈ l) ∧ a ≤ l.foldl max a ∧ ∀ x ∈ l, x ≤ l.foldl max a := by
  induction l generalizing a with
  | nil => simp
  | cons y l ih =>
    obtain ⟨h1, h2, h3⟩ := ih (max a y)
    rw [List.foldl_cons]
    refine ⟨?_, (le_max_left _ _).trans h2, ?_⟩
    · rcases h1 with h1 | h1
      · rw [h1]; rcases max_choice a y with h | h <;> simp [h]
      · right; exact List.mem_cons_of_mem _ h1
    · intro x hx
      rcases List.mem_cons.1 hx with rfl | hx
      · exact (le_max_right _ _).trans h2
      · exact h3 x hx

theorem sum_bounds (l : List ℕ) (lo hi : ℕ) (h : ∀ x ∈ l, lo ≤ x ∧ x ≤ hi) : lo * l.length ≤ l.sum ∧ l.sum ≤ hi * l.length := by
  induction l with
  | nil => simp
  | cons y l ih =>
    obtain ⟨h1, h2⟩ := ih fun x hx => h x (List.mem_cons_of_mem _ hx)
    obtain ⟨h3, h4⟩ := h y List.mem_cons_self
    rw [List.sum_cons, List.length_cons, Nat.mul_succ, Nat.mul_succ]
    omega

theorem foldl_add (l : List ℕ) (a : ℕ) : l.foldl (· + ·) a = a + l.sum := by
  induction l generalizing a with
  | nil => simp
  | cons y l ih => rw [List.foldl_cons, ih, List.sum_cons]; ring

theorem filter_add (l : List (Bool × ℕ)) :
    (l.filter fun p => p.1).length + (l.filter fun p => !p.1).length = l.length := by
  induction l with
  | nil => simp
  | cons p l ih => rcases p with ⟨b, n⟩; cases b <;> simp_all <;> omega

/-- The row of one level. -/
theorem level_row (e : Setup Key Solver) (s : Solver) (k : ℕ) (key : Key) (h : 2 ≤ e.numDictTrials * e.numSignalTrials) :
    ∃ r, mkRow s k (levelAcc e s k key) = some r ∧
      IsSummary r s k ((instancesAt e key).map fun p => e.trial s k p.1 p.2) := by
  rw [levelAcc_eq]
  have hlen := instancesAt_length e key
  set I := instancesAt e key with hI
  set res := I.map fun p => e.trial s k p.1 p.2 with hres
  have hres_len : res.length = e.numDictTrials * e.numSignalTrials := by rw [hres, List.length_map, hlen]
  have hits : (I.map fun p => (e.trial s k p.1 p.2).2) = res.map fun p => p.2 := by rw [hres, List.map_map]; rfl
  rw [hits]
  set its := res.map fun p => p.2 with hi
  have hits_len : its.length = e.numDictTrials * e.numSignalTrials := by rw [hi, List.length_map, hres_len]
  have hne : its ≠ [] := by intro h0; rw [h0] at hits_len; rw [List.length_nil] at hits_len; omega
  have hne0 : I.length ≠ 0 := by omega
  have hne1 : I.length - 1 ≠ 0 := by omega
  refine ⟨_, by unfold mkRow; simp only [if_neg hne0, if_neg hne1]; rfl, ?_⟩
  have hfa := filter_add res
  have hmem : ∀ x, x ∈ its → ∃ p ∈ res, p.2 = x := fun x hx => by
    rw [hi] at hx; simpa using hx
  have hmem' : ∀ p ∈ res, p.2 ∈ its := fun p hp => List.mem_map_of_mem hp
  have hmin := foldl_min its (its.headD 0)
  have hmax := foldl_max its 0
  have hhead : its.headD 0 ∈ its := by
    cases hc : its with
    | nil => exact absurd hc hne
    | cons a l => simp
  have hmin1 : its.foldl min (its.headD 0) ∈ its := by
    rcases hmin.1 with h | h
    · rw [h]; exact hhead
    · exact h
  have hmax1 : its.foldl max 0 ∈ its := by
    rcases hmax.1 with h | h
    · have := hmax.2.2 _ hhead
      have e0 : its.headD 0 = its.foldl max 0 := by omega
      rw [← e0]; exact hhead
    · exact h
  have hIq : (0 : ℚ) < (I.length : ℚ) := by exact_mod_cast Nat.pos_of_ne_zero hne0
  have hIr : res.length = I.length := by omega
  have hIi : its.length = I.length := by omega
  have hsb := sum_bounds its _ _ fun x hx => ⟨hmin.2.2 x hx, hmax.2.2 x hx⟩
  refine ⟨rfl, rfl, ?_, rfl, ?_, ?_, ?_, ⟨hmem _ hmin1, fun p hp => hmin.2.2 _ (hmem' p hp)⟩,
    ⟨hmem _ hmax1, fun p hp => hmax.2.2 _ (hmem' p hp)⟩, ?_, ?_⟩
  · exact hIr.symm
  · show (I.length : ℤ) - ((res.filter fun p => p.1).length : ℤ) = _
    omega
  · show (((res.filter fun p => p.1).length : ℚ) / (I.length : ℚ)) * (I.length : ℚ) = _
    rw [div_mul_cancel₀ _ hIq.ne']
  · refine ⟨div_nonneg (Nat.cast_nonneg _) hIq.le, ?_⟩
    show ((res.filter fun p => p.1).length : ℚ) / (I.length : ℚ) ≤ 1
    rw [div_le_one hIq]
    exact_mod_cast (by omega : (res.filter fun p => p.1).length ≤ I.length)
  · show ((its.foldl (· + ·) 0 : ℕ) : ℚ) / (its.length : ℚ) * (res.length : ℚ) = _
    rw [hIi, hIr, div_mul_cancel₀ _ hIq.ne', foldl_add, zero_add]
  · show ((its.foldl min (its.headD 0) : ℕ) : ℚ) ≤ ((its.foldl (· + ·) 0 : ℕ) : ℚ) / (its.length : ℚ) ∧
      ((its.foldl (· + ·) 0 : ℕ) : ℚ) / (its.length : ℚ) ≤ ((its.foldl max 0 : ℕ) : ℚ)
    rw [foldl_add, zero_add, hIi, le_div_iff₀ hIq, div_le_iff₀ hIq]
    rw [hIi] at hsb
    exact ⟨by exact_mod_cast hsb.1, by exact_mod_cast hsb.2⟩

/-! ## Operation lists without an exception -/

/-- Every appended row is saved at once; extra saves may follow. -/
inductive Safe : List (Op Solver) → List (Row Solver) → Prop
  | nil : Safe [] []
  | save {ops rows} : Safe ops rows → Safe (Op.save :: ops) rows
  | row {ops rows} (r : Row Solver) : Safe ops rows → Safe (Op.append r :: Op.save :: ops) (r :: rows)

theorem Safe.append {a b : List (Op Solver)} {ra rb : List (Row Solver)} (ha : Safe a ra) (hb : Safe b rb) : Safe (a ++ b) (ra ++ rb) := by
  induction ha with
  | nil => exact hb
  | save _ ih => exact Safe.save ih
  | row r _ ih => exact Safe.row r ih

/-- The file holds the table (or there is neither). -/
def Synced (st : Store Solver) : Prop := st.raised = false ∧ (st.file = some st.df ∨ st.file = none ∧ st.df = [])

theorem safe_run {ops : List (Op Solver)} {rows : List (Row Solver)} (h : Safe ops rows) (st : Store Solver) (hs : Synced st) (c : ℕ) :
    let t := (ops.take c).foldl Store.step st
    t.raised = false ∧ (∃ p, p <+: rows ∧ t.df = st.df ++ p) ∧
      (Synced t ∨ (∃ r, (∃ f, t.file = some f ∧ t.df = f ++ [r]) ∨ t.file = none ∧ t.df = [r])) := by
  induction h generalizing st c with
  | nil => exact ⟨by simpa using hs.1, ⟨[], List.prefix_rfl, by simp⟩, Or.inl (by simpa using hs)⟩
  | save _ ih =>
    cases c with
    | zero => exact ⟨hs.1, ⟨[], List.nil_prefix, by simp⟩, Or.inl hs⟩
    | succ c =>
      simp only [List.take_succ_cons, List.foldl_cons]
      have hst : st.step Op.save = { st with file := some st.df } := by simp [Store.step, hs.1]
      rw [hst]
      exact ih { st with file := some st.df } ⟨hs.1, Or.inl rfl⟩ c
  | row r _ ih =>
    have hst : st.step (Op.append r) = { st with df := st.df ++ [r] } := by simp [Store.step, hs.1]
    rcases c with _ | _ | c
    · exact ⟨hs.1, ⟨[], List.nil_prefix, by simp⟩, Or.inl hs⟩
    · simp only [List.take_succ_cons, List.take_zero, List.foldl_cons, List.foldl_nil, hst]
      refine ⟨hs.1, ⟨[r], ⟨_, rfl⟩, rfl⟩, Or.inr ⟨r, ?_⟩⟩
      rcases hs.2 with h | ⟨h1, h2⟩
      · exact Or.inl ⟨st.df, h, rfl⟩
      · exact Or.inr ⟨h1, by simp [h2]⟩
    · simp only [List.take_succ_cons, List.foldl_cons, hst]
      have hst2 : ({ st with df := st.df ++ [r] } : Store Solver).step Op.save =
          { st with df := st.df ++ [r], file := some (st.df ++ [r]) } := by simp [Store.step, hs.1]
      rw [hst2]
      obtain ⟨h1, ⟨p, hp, h2⟩, h3⟩ := ih { st with df := st.df ++ [r], file := some (st.df ++ [r]) } ⟨hs.1, Or.inl rfl⟩ c
      refine ⟨h1, ⟨r :: p, (List.cons_prefix_cons).2 ⟨rfl, hp⟩, ?_⟩, h3⟩
      rw [h2]; simp

theorem safe_complete {ops : List (Op Solver)} {rows : List (Row Solver)} (h : Safe ops rows) (st : Store Solver) (hs : Synced st) :
    (ops.foldl Store.step st).df = st.df ++ rows ∧ Synced (ops.foldl Store.step st) ∧
      (Op.save ∈ ops → (ops.foldl Store.step st).file = some (st.df ++ rows)) := by
  induction h generalizing st with
  | nil => exact ⟨by simp, hs, by simp⟩
  | @save ops rows hsafe ih =>
    have hst : st.step Op.save = { st with file := some st.df } := by simp [Store.step, hs.1]
    rw [List.foldl_cons, hst]
    obtain ⟨h1, h2, h3⟩ := ih { st with file := some st.df } ⟨hs.1, Or.inl rfl⟩
    refine ⟨h1, h2, fun _ => ?_⟩
    by_cases hm : Op.save ∈ ops
    · exact h3 hm
    · cases hsafe with
      | nil => simp
      | save _ => simp at hm
      | row _ _ => simp at hm
  | @row ops rows r hsafe ih =>
    have hst : st.step (Op.append r) = { st with df := st.df ++ [r] } := by simp [Store.step, hs.1]
    have hst2 : ({ st with df := st.df ++ [r] } : Store Solver).step Op.save =
        { st with df := st.df ++ [r], file := some (st.df ++ [r]) } := by simp [Store.step, hs.1]
    rw [List.foldl_cons, List.foldl_cons, hst, hst2]
    obtain ⟨h1, h2, h3⟩ := ih { st with df := st.df ++ [r], file := some (st.df ++ [r]) } ⟨hs.1, Or.inl rfl⟩
    have h1' : st.df ++ [r] ++ _ = _ := h1.symm
    refine ⟨by rw [h1]; simp, h2, fun _ => ?_⟩
    by_cases hm : Op.save ∈ ops
    · rw [h3 hm]; simp
    · cases hsafe with
      | nil => simp
      | save _ => simp at hm
      | row _ _ => simp at hm

theorem levels_safe (e : Setup Key Solver) (h : 2 ≤ e.numDictTrials * e.numSignalTrials) (s : Solver) (ks : List ℕ) (key : Key) :
    ∃ rows : List (Row Solver), Safe (levels e s key ks) rows ∧ rows.length = ks.length ∧
      ∀ i (hi : i < ks.length) (hr : i < rows.length),
        IsSummary rows[i] s ks[i] ((instancesAt e ((nextKey e)^[i + 1] key)).map fun p => e.trial s ks[i] p.1 p.2) := by
  induction ks generalizing key with
  | nil => exact ⟨[], Safe.nil, rfl, fun i hi => by simp at hi⟩
  | cons k ks ih =>
    obtain ⟨r, hr, hsum⟩ := level_row e s k (nextKey e key) h
    obtain ⟨rows, h1, h2, h3⟩ := ih (nextKey e key)
    refine ⟨r :: rows, ?_, by simp [h2], ?_⟩
    · simp only [levels, hr]
      exact Safe.row r h1
    · intro i hi hri
      cases i with
      | zero => exact hsum
      | succ i =>
        simp only [List.length_cons, Nat.add_lt_add_iff_right] at hi hri
        exact h3 i hi hri

/-- **C106 (the table)** With at least two trials per level the experiment runs to its end: the table has one row per solver and sparsity
level, in the order of the loops, and row `i` of a solver summarises its results on the instances of level `i`, which are the same for all
solvers.  **C106 (interruption)** Whenever the experiment is interrupted, the file holds all rows computed so far except possibly the last
one, and the rows are the first ones of the complete table. -/
theorem c106_trials (e : Setup Key Solver) (h : 2 ≤ e.numDictTrials * e.numSignalTrials) (solvers : List Solver) :
    ∃ rows : Solver → List (Row Solver),
      (∀ s, (rows s).length = e.ks.length ∧ ∀ i (hi : i < e.ks.length) (hr : i < (rows s).length),
        IsSummary (rows s)[i] s e.ks[i] ((instances e i).map fun p => e.trial s e.ks[i] p.1 p.2)) ∧
      (∀ c, (afterOps e solvers c).raised = false ∧ (afterOps e solvers c).df <+: solvers.flatMap rows ∧
        ((afterOps e solvers c).file = some (afterOps e solvers c).df ∨
         (∃ r f, (afterOps e solvers c).file = some f ∧ (afterOps e solvers c).df = f ++ [r]) ∨
         (afterOps e solvers c).file = none ∧ (afterOps e solvers c).df.length ≤ 1)) ∧
      (∀ c, (call e solvers).length ≤ c → (afterOps e solvers c).df = solvers.flatMap rows ∧
        (solvers ≠ [] → (afterOps e solvers c).file = some (solvers.flatMap rows))) := by
  choose rows h1 h2 h3 using fun s => levels_safe e h s e.ks e.seed
  have hp : ∀ s, Safe (process e s) (rows s) := fun s => by
    have := (h1 s).append (Safe.save Safe.nil)
    simpa [process] using this
  have hc : Safe (call e solvers) (solvers.flatMap rows) := by
    unfold call
    induction solvers with
    | nil => exact Safe.nil
    | cons s l ih => rw [List.flatMap_cons, List.flatMap_cons]; exact (hp s).append ih
  have h0 : Synced ({} : Store Solver) := ⟨rfl, Or.inr ⟨rfl, rfl⟩⟩
  refine ⟨rows, fun s => ⟨h2 s, h3 s⟩, fun c => ?_, fun c hle => ?_⟩
  · obtain ⟨a1, ⟨p, a2, a3⟩, a4⟩ := safe_run hc {} h0 c
    have a3' : (afterOps e solvers c).df = p := by unfold afterOps; rw [a3]; rfl
    refine ⟨a1, a3' ▸ a2, ?_⟩
    rcases a4 with ⟨_, b | ⟨b1, b2⟩⟩ | ⟨r, ⟨f, b1, b2⟩ | ⟨b1, b2⟩⟩
    · exact Or.inl b
    · exact Or.inr (Or.inr ⟨b1, by unfold afterOps; rw [b2]; simp⟩)
    · exact Or.inr (Or.inl ⟨r, f, b1, b2⟩)
    · exact Or.inr (Or.inr ⟨b1, by unfold afterOps; rw [b2]; simp⟩)
  · obtain ⟨a1, a2, a3⟩ := safe_complete hc {} h0
    unfold afterOps
    rw [List.take_of_length_le hle]
    refine ⟨by rw [a1]; rfl, fun hne => ?_⟩
    rw [a3]
    · rfl
    · obtain ⟨s, l, rfl⟩ := List.exists_cons_of_ne_nil hne
      unfold call
      rw [List.flatMap_cons, process]
      simp

/-- The calls of the solver at one level are made with the instances of that level. -/
theorem c106_calls (e : Setup Key Solver) (s : Solver) (k i : ℕ) :
    (levelAcc e s k (levelKey e i)).calls = instances e i := by
  rw [levelAcc_eq]; rfl

/-- **C106 (distinct signals, partial)** If there are at most as many signals as dictionaries, the keys of the signals drawn for one
dictionary are all distinct (for a generator whose split keys are distinct).  Missing: more signals than dictionaries
(`c106_signals_fails`). -/
theorem c106_signals_partial (e : Setup Key Solver) (hsplit : ∀ k c i j, i < c → j < c → e.split k c i = e.split k c j → i = j)
    (h : e.numSignalTrials ≤ e.numDictTrials) (dk : Key) (i j : ℕ) (hi : i < e.numSignalTrials) (hj : j < e.numSignalTrials)
    (hij : signalKey e dk i = signalKey e dk j) : i = j := by
  unfold signalKey at hij
  rw [min_eq_left (by omega), min_eq_left (by omega)] at hij
  exact hsplit dk _ i j (by omega) (by omega) hij

/-- **C106 (distinct signals) fails.** All signals numbered `num_dict_trials - 1` and above are the same: in particular with one dictionary
(the usage in the class documentation) all trials of a level solve one and the same instance, so the success rate is 0 or 1. -/
theorem c106_signals_fails (e : Setup Key Solver) :
    (∀ dk i, e.numDictTrials - 1 ≤ i → signalKey e dk i = signalKey e dk (e.numDictTrials - 1)) ∧
    (e.numDictTrials = 1 → 2 ≤ e.numSignalTrials → ∀ s k key, ∃ r, mkRow s k (levelAcc e s k key) = some r ∧
      r.trials = e.numSignalTrials ∧ (r.successRate = 0 ∨ r.successRate = 1)) := by
  refine ⟨fun dk i hi => ?_, fun hD hS s k key => ?_⟩
  · unfold signalKey
    rw [min_eq_right hi, min_self]
  · obtain ⟨r, hr, hs⟩ := level_row e s k key (by rw [hD]; omega)
    refine ⟨r, hr, ?_, ?_⟩
    · rw [hs.trials, List.length_map, instancesAt_length, hD, one_mul]
    · have hrep : ((instancesAt e key).map fun p => e.trial s k p.1 p.2) =
          List.replicate e.numSignalTrials (e.trial s k (e.split key 1 0) (e.split (e.split key 1 0) 1 0)) := by
        unfold instancesAt signalKey
        rw [hD]
        simp only [List.range_one, List.flatMap_cons, List.flatMap_nil, List.append_nil, Nat.sub_self, Nat.min_zero, List.map_map]
        rw [List.eq_replicate_iff]
        refine ⟨by simp, fun b hb => ?_⟩
        obtain ⟨j, _, rfl⟩ := List.mem_map.1 hb
        rfl
      have h1 := hs.rate
      have h2 := hs.successes
      have h3 := hs.trials
      rw [hrep] at h2 h3
      rw [List.length_replicate] at h3
      rw [List.filter_replicate] at h2
      have hpos : (r.trials : ℚ) ≠ 0 := by rw [h3]; exact_mod_cast (by omega : e.numSignalTrials ≠ 0)
      split at h2
      · right
        rw [List.length_replicate, ← h3] at h2
        rw [h2] at h1
        exact mul_right_cancel₀ hpos (by rw [h1, one_mul])
      · left
        rw [List.length_nil] at h2
        rw [h2, Nat.cast_zero] at h1
        exact (mul_eq_zero.1 h1).resolve_right hpos

/-- **C106 (fresh keys) fails.** With two dictionaries per level, the keys of the signals drawn for the first dictionary of a level are the
keys of the dictionaries of the next level: the same key is used twice. -/
theorem c106_fresh_fails (e : Setup Key Solver) (hD : e.numDictTrials = 2) (i j : ℕ) (hj : j < 2) :
    signalKey e (e.split (levelKey e i) e.numDictTrials 0) j = e.split (levelKey e (i + 1)) e.numDictTrials j := by
  unfold signalKey levelKey
  rw [Function.iterate_succ_apply' (nextKey e) (i + 1), hD, min_eq_left (by omega)]
  rfl

/-- **C106 (any number of trials) fails.** With one trial per level the experiment stops with a division by zero at its first level and
writes nothing. -/
theorem c106_single_trial_fails (e : Setup Key Solver) (h : e.numDictTrials * e.numSignalTrials ≤ 1) (hk : e.ks ≠ []) (s : Solver)
    (solvers : List Solver) (c : ℕ) (hc : 0 < c) :
    (afterOps e (s :: solvers) c).raised = true ∧ (afterOps e (s :: solvers) c).file = none := by
  obtain ⟨k, ks, hks⟩ := List.exists_cons_of_ne_nil hk
  have hrow : mkRow s k (levelAcc e s k (nextKey e e.seed)) = none := by
    rw [levelAcc_eq]
    unfold mkRow
    simp only [instancesAt_length]
    split_ifs with h1 h2
    · rfl
    · rfl
    · omega
  have hst : ∀ (ops : List (Op Solver)) (st : Store Solver), st.raised = true →
      (ops.foldl Store.step st).raised = true ∧ (ops.foldl Store.step st).file = st.file := by
    intro ops
    induction ops with
    | nil => intro st h; exact ⟨h, rfl⟩
    | cons o ops ih =>
      intro st h
      rw [List.foldl_cons]
      have h1 : (st.step o).raised = true ∧ (st.step o).file = st.file := by
        cases o <;> simp [Store.step, h]
      obtain ⟨a, b⟩ := ih _ h1.1
      exact ⟨a, b.trans h1.2⟩
  obtain ⟨c, rfl⟩ : ∃ d, c = d + 1 := ⟨c - 1, by omega⟩
  unfold afterOps call
  rw [List.flatMap_cons, process, hks]
  simp only [levels, hrow, List.cons_append, List.take_succ_cons, List.foldl_cons]
  exact hst _ _ rfl

/-- A generator with distinct split keys, and an experiment with two dictionaries, three signals and two levels. -/
def sampleSetup : Setup ℕ ℕ where
  split k c i := Nat.pair k (Nat.pair c i)
  seed := 0
  trial s k dk sk := (decide (s + dk < sk), k + s)
  numDictTrials := 2
  numSignalTrials := 3
  ks := [1, 4]

theorem ex_setup : 2 ≤ sampleSetup.numDictTrials * sampleSetup.numSignalTrials ∧ sampleSetup.ks ≠ [] ∧
    (∀ k c i j, i < c → j < c → sampleSetup.split k c i = sampleSetup.split k c j → i = j) := by
  refine ⟨by decide, by decide, fun k c i j _ _ h => ?_⟩
  have h' : Nat.pair k (Nat.pair c i) = Nat.pair k (Nat.pair c j) := h
  rw [Nat.pair_eq_pair, Nat.pair_eq_pair] at h'
  exact h'.2.2

example := c106_trials sampleSetup ex_setup.1
example (dk i j : ℕ) := c106_signals_partial { sampleSetup with numDictTrials := 3 } ex_setup.2.2 le_rfl dk i j
example := c106_fresh_fails { sampleSetup with numDictTrials := 2 } rfl 0 1 (by norm_num)
example := c106_single_trial_fails { sampleSetup with numDictTrials := 1, numSignalTrials := 1 } le_rfl ex_setup.2.1

end Verif.Tools.Trials
