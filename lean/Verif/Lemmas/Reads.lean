import Verif.Spec.Gaussian
import Verif.Lemmas.Gaussian

/-! The lazy caches of `Gaussian` objects are unobservable: lemmas for C04. -/

namespace Verif

open Matrix Gaussian

/-- Reads leave everything readable as it was. -/
structure SameReads (env : Env) (g g' : Gaussian) : Prop where
  mode : g'.mode = g.mode
  dim_ : g'.dim_ = g.dim_
  chol_ : g'.chol_ = g.chol_
  mean : (getMean env g').1 = (getMean env g).1
  cov : (getCov env g').1 = (getCov env g).1
  precision : (getPrecision env g').1 = (getPrecision env g).1
  shift : (getShift env g').1 = (getShift env g).1
  complete : Complete g'

theorem sameReads_mean (env : Env) (g : Gaussian) (hg : Complete g) : SameReads env g (getMean env g).2 := by
  by_cases h : g.mode = .natural ∧ g.mean_ = none
  · have hc : g.cov_ = none := (hg.1 h.1).1 h.2
    cases hn : naturalToMoment env g.precision_ g.shift_ with
    | error e =>
      have : getMean env g = (.error e, g) := by simp [getMean, h, hn]
      rw [this]; exact ⟨rfl, rfl, rfl, rfl, rfl, rfl, rfl, hg⟩
    | ok r =>
      obtain ⟨mn, cv⟩ := r
      have : getMean env g = (.ok (some mn), { g with mean_ := some mn, cov_ := some cv }) := by simp [getMean, h, hn]
      rw [this]
      constructor <;> simp [getMean, getCov, getPrecision, getShift, Complete, h, hc, hn]
  · have : getMean env g = (.ok g.mean_, g) := by simp only [getMean, if_neg h]
    rw [this]; exact ⟨rfl, rfl, rfl, rfl, rfl, rfl, rfl, hg⟩

theorem sameReads_cov (env : Env) (g : Gaussian) (hg : Complete g) : SameReads env g (getCov env g).2 := by
  by_cases h : g.mode = .natural ∧ g.cov_ = none
  · have hc : g.mean_ = none := (hg.1 h.1).2 h.2
    cases hn : naturalToMoment env g.precision_ g.shift_ with
    | error e =>
      have : getCov env g = (.error e, g) := by simp [getCov, h, hn]
      rw [this]; exact ⟨rfl, rfl, rfl, rfl, rfl, rfl, rfl, hg⟩
    | ok r =>
      obtain ⟨mn, cv⟩ := r
      have : getCov env g = (.ok (some cv), { g with mean_ := some mn, cov_ := some cv }) := by simp [getCov, h, hn]
      rw [this]
      constructor <;> simp [getMean, getCov, getPrecision, getShift, Complete, h, hc, hn]
  · have : getCov env g = (.ok g.cov_, g) := by simp only [getCov, if_neg h]
    rw [this]; exact ⟨rfl, rfl, rfl, rfl, rfl, rfl, rfl, hg⟩

theorem sameReads_precision (env : Env) (g : Gaussian) (hg : Complete g) : SameReads env g (getPrecision env g).2 := by
  by_cases h : g.mode = .moment ∧ g.precision_ = none
  · have hc : g.shift_ = none := (hg.2 h.1).1 h.2
    cases hn : momentToNatural env g.mean_ g.cov_ with
    | error e =>
      have : getPrecision env g = (.error e, g) := by simp [getPrecision, h, hn]
      rw [this]; exact ⟨rfl, rfl, rfl, rfl, rfl, rfl, rfl, hg⟩
    | ok r =>
      obtain ⟨p, s⟩ := r
      have : getPrecision env g = (.ok (some p), { g with precision_ := some p, shift_ := some s }) := by
        simp [getPrecision, h, hn]
      rw [this]
      constructor <;> simp [getMean, getCov, getPrecision, getShift, Complete, h, hc, hn]
  · have : getPrecision env g = (.ok g.precision_, g) := by simp only [getPrecision, if_neg h]
    rw [this]; exact ⟨rfl, rfl, rfl, rfl, rfl, rfl, rfl, hg⟩

theorem sameReads_shift (env : Env) (g : Gaussian) (hg : Complete g) : SameReads env g (getShift env g).2 := by
  by_cases h : g.mode = .moment ∧ g.shift_ = none
  · have hc : g.precision_ = none := (hg.2 h.1).2 h.2
    cases hn : momentToNatural env g.mean_ g.cov_ with
    | error e =>
      have : getShift env g = (.error e, g) := by simp [getShift, h, hn]
      rw [this]; exact ⟨rfl, rfl, rfl, rfl, rfl, rfl, rfl, hg⟩
    | ok r =>
      obtain ⟨p, s⟩ := r
      have : getShift env g = (.ok (some s), { g with precision_ := some p, shift_ := some s }) := by
        simp [getShift, h, hn]
      rw [this]
      constructor <;> simp [getMean, getCov, getPrecision, getShift, Complete, h, hc, hn]
  · have : getShift env g = (.ok g.shift_, g) := by simp only [getShift, if_neg h]
    rw [this]; exact ⟨rfl, rfl, rfl, rfl, rfl, rfl, rfl, hg⟩

/-- `dim` as a function of the other reads. -/
theorem getDim_fst (env : Env) (g : Gaussian) : (getDim env g).1 =
    match g.dim_ with
    | some d => .ok d
    | none => ((if g.mode = .natural then (getShift env g).1 else (getMean env g).1) >>= npShape0) := by
  unfold getDim
  cases g.dim_ with
  | some d => rfl
  | none =>
    by_cases hm : g.mode = .natural
    · simp only [hm, if_true]
      rcases hr : getShift env g with ⟨r, g'⟩
      rcases r with e | a
      · rfl
      · simp only [ok_bind]
        cases npShape0 a <;> rfl
    · simp only [hm, if_false]
      rcases hr : getMean env g with ⟨r, g'⟩
      rcases r with e | a
      · rfl
      · simp only [ok_bind]
        cases npShape0 a <;> rfl

theorem getDim_snd (env : Env) (g : Gaussian) : (getDim env g).2 = g ∨
    (g.dim_ = none ∧ ∃ g', (g' = (getShift env g).2 ∨ g' = (getMean env g).2) ∧
      ((getDim env g).2 = g' ∨ ∃ d, (getDim env g).1 = .ok d ∧ (getDim env g).2 = { g' with dim_ := some d })) := by
  unfold getDim
  cases hd : g.dim_ with
  | some d => exact .inl rfl
  | none =>
    refine .inr ⟨rfl, ?_⟩
    by_cases hm : g.mode = .natural
    · simp only [hm, if_true]
      refine ⟨_, .inl rfl, ?_⟩
      rcases hr : getShift env g with ⟨r, g'⟩
      rcases r with e | a
      · exact .inl rfl
      · dsimp only
        cases npShape0 a with
        | error e => exact .inl rfl
        | ok d => exact .inr ⟨d, rfl, rfl⟩
    · simp only [hm, if_false]
      refine ⟨_, .inr rfl, ?_⟩
      rcases hr : getMean env g with ⟨r, g'⟩
      rcases r with e | a
      · exact .inl rfl
      · dsimp only
        cases npShape0 a with
        | error e => exact .inl rfl
        | ok d => exact .inr ⟨d, rfl, rfl⟩

/-- `chol_cov` as a function of the other reads. -/
theorem getChol_fst (env : Env) (g : Gaussian) : (getChol env g).1 =
    match g.chol_ with
    | some c => .ok c
    | none => ((getCov env g).1 >>= fun r => match r with | none => .error .value | some cv => spCholeskyL cv) := by
  unfold getChol
  cases g.chol_ with
  | some d => rfl
  | none =>
    dsimp only
    rcases hr : getCov env g with ⟨r, g'⟩
    rcases r with e | (_ | a)
    · rfl
    · rfl
    · simp only [ok_bind]
      cases spCholeskyL a <;> rfl

theorem getChol_snd (env : Env) (g : Gaussian) : (getChol env g).2 = g ∨
    (g.chol_ = none ∧ ((getChol env g).2 = (getCov env g).2 ∨
      ∃ c, (getChol env g).1 = .ok c ∧ (getChol env g).2 = { (getCov env g).2 with chol_ := some c })) := by
  unfold getChol
  cases hd : g.chol_ with
  | some d => exact .inl rfl
  | none =>
    refine .inr ⟨rfl, ?_⟩
    dsimp only
    rcases hr : getCov env g with ⟨r, g'⟩
    rcases r with e | (_ | a)
    · exact .inl rfl
    · exact .inl rfl
    · dsimp only
      cases spCholeskyL a with
      | error e => exact .inl rfl
      | ok c => exact .inr ⟨c, rfl, rfl⟩

/-- What all six reads show, in terms of `SameReads`. -/
theorem SameReads.read {env : Env} {g g' : Gaussian} (h : SameReads env g g') (r : Read) :
    (Verif.read env r g').1 = (Verif.read env r g).1 := by
  cases r
  · simp only [Verif.read, h.mean]
  · simp only [Verif.read, h.cov]
  · simp only [Verif.read, h.precision]
  · simp only [Verif.read, h.shift]
  · simp only [Verif.read, getDim_fst, h.dim_, h.mode, h.shift, h.mean]
  · simp only [Verif.read, getChol_fst, h.chol_, h.cov]

theorem SameReads.refl {env : Env} {g : Gaussian} (h : Complete g) : SameReads env g g :=
  ⟨rfl, rfl, rfl, rfl, rfl, rfl, rfl, h⟩

theorem basic_setDim (env : Env) (g : Gaussian) (d : Option ℕ) :
    (getMean env { g with dim_ := d }).1 = (getMean env g).1 ∧ (getCov env { g with dim_ := d }).1 = (getCov env g).1 ∧
    (getPrecision env { g with dim_ := d }).1 = (getPrecision env g).1 ∧
    (getShift env { g with dim_ := d }).1 = (getShift env g).1 := by
  refine ⟨?_, ?_, ?_, ?_⟩
  · simp only [getMean]; split_ifs
    · cases naturalToMoment env g.precision_ g.shift_ <;> rfl
    · rfl
  · simp only [getCov]; split_ifs
    · cases naturalToMoment env g.precision_ g.shift_ <;> rfl
    · rfl
  · simp only [getPrecision]; split_ifs
    · cases momentToNatural env g.mean_ g.cov_ <;> rfl
    · rfl
  · simp only [getShift]; split_ifs
    · cases momentToNatural env g.mean_ g.cov_ <;> rfl
    · rfl

theorem basic_setChol (env : Env) (g : Gaussian) (d : Option Arr) :
    (getMean env { g with chol_ := d }).1 = (getMean env g).1 ∧ (getCov env { g with chol_ := d }).1 = (getCov env g).1 ∧
    (getPrecision env { g with chol_ := d }).1 = (getPrecision env g).1 ∧
    (getShift env { g with chol_ := d }).1 = (getShift env g).1 := by
  refine ⟨?_, ?_, ?_, ?_⟩
  · simp only [getMean]; split_ifs
    · cases naturalToMoment env g.precision_ g.shift_ <;> rfl
    · rfl
  · simp only [getCov]; split_ifs
    · cases naturalToMoment env g.precision_ g.shift_ <;> rfl
    · rfl
  · simp only [getPrecision]; split_ifs
    · cases momentToNatural env g.mean_ g.cov_ <;> rfl
    · rfl
  · simp only [getShift]; split_ifs
    · cases momentToNatural env g.mean_ g.cov_ <;> rfl
    · rfl

theorem read_step (env : Env) (g : Gaussian) (hg : Complete g) (r : Read) :
    Complete (read env r g).2 ∧ ∀ r', (read env r' (read env r g).2).1 = (read env r' g).1 := by
  have key : ∀ g', SameReads env g g' → Complete g' ∧ ∀ r', (read env r' g').1 = (read env r' g).1 :=
    fun g' h => ⟨h.complete, h.read⟩
  cases r with
  | mean => exact key _ (sameReads_mean env g hg)
  | cov => exact key _ (sameReads_cov env g hg)
  | precision => exact key _ (sameReads_precision env g hg)
  | shift => exact key _ (sameReads_shift env g hg)
  | dim =>
    change Complete (getDim env g).2 ∧ ∀ r', (read env r' (getDim env g).2).1 = _
    rcases getDim_snd env g with h | ⟨hd, g', hg', h⟩
    · rw [h]; exact key _ (SameReads.refl hg)
    · have hs : SameReads env g g' := by
        rcases hg' with rfl | rfl
        · exact sameReads_shift env g hg
        · exact sameReads_mean env g hg
      rcases h with h | ⟨d, h1, h⟩
      · rw [h]; exact key _ hs
      · rw [h]
        refine ⟨hs.complete, fun r' => ?_⟩
        obtain ⟨b1, b2, b3, b4⟩ := basic_setDim env g' (some d)
        cases r' with
        | dim => simp only [read, h1, getDim_fst env { g' with dim_ := some d }]
        | mean => simp only [read, b1, hs.mean]
        | cov => simp only [read, b2, hs.cov]
        | precision => simp only [read, b3, hs.precision]
        | shift => simp only [read, b4, hs.shift]
        | chol => simp only [read, getChol_fst]; rw [b2, hs.cov]; simp only [hs.chol_]
  | chol =>
    change Complete (getChol env g).2 ∧ ∀ r', (read env r' (getChol env g).2).1 = _
    rcases getChol_snd env g with h | ⟨hd, h⟩
    · rw [h]; exact key _ (SameReads.refl hg)
    · have hs := sameReads_cov env g hg
      rcases h with h | ⟨c, h1, h⟩
      · rw [h]; exact key _ hs
      · rw [h]
        refine ⟨hs.complete, fun r' => ?_⟩
        obtain ⟨b1, b2, b3, b4⟩ := basic_setChol env (getCov env g).2 (some c)
        cases r' with
        | chol => simp only [read, h1, getChol_fst env { (getCov env g).2 with chol_ := some c }]
        | mean => simp only [read, b1, hs.mean]
        | cov => simp only [read, b2, hs.cov]
        | precision => simp only [read, b3, hs.precision]
        | shift => simp only [read, b4, hs.shift]
        | dim => simp only [read, getDim_fst]; rw [b1, b4, hs.mean, hs.shift]; simp only [hs.dim_, hs.mode]

theorem complete_init (mean cov precision shift : Option Arr)
    (h : ¬ (mean.isSome ∧ cov = none ∧ shift.isSome)) : Complete (init mean cov precision shift) := by
  cases mean <;> cases shift <;> cases cov <;> simp_all [Complete, init]

theorem read_mode (env : Env) (g : Gaussian) (r : Read) (hg : Complete g) : (read env r g).2.mode = g.mode := by
  cases r with
  | mean => exact (sameReads_mean env g hg).mode
  | cov => exact (sameReads_cov env g hg).mode
  | precision => exact (sameReads_precision env g hg).mode
  | shift => exact (sameReads_shift env g hg).mode
  | dim =>
    change (getDim env g).2.mode = _
    rcases getDim_snd env g with h | ⟨hd, g', hg', h⟩
    · rw [h]
    · have hs : g'.mode = g.mode := by
        rcases hg' with rfl | rfl
        · exact (sameReads_shift env g hg).mode
        · exact (sameReads_mean env g hg).mode
      rcases h with h | ⟨d, _, h⟩
      · rw [h, hs]
      · rw [h, ← hs]
  | chol =>
    change (getChol env g).2.mode = _
    rcases getChol_snd env g with h | ⟨hd, h⟩
    · rw [h]
    · rcases h with h | ⟨c, _, h⟩
      · rw [h, (sameReads_cov env g hg).mode]
      · rw [h]; exact (sameReads_cov env g hg).mode

theorem map_arr_inj {x y : Py (Option Arr)} (h : x.map Obs.arr = y.map Obs.arr) : x = y := by
  cases x <;> cases y <;> simp_all [Except.map]

end Verif
