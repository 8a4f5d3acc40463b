import Verif.Model.StateChain
import Verif.Lemmas.Cache
import Verif.Lemmas.Save
import Verif.Lemmas.Chain

/-!
# What the evaluation of the likelihood does to a state
-/

namespace BB.Lemmas

open BB BB.Spec

/-- `s'` is `s` with more predicted data in the cache. -/
structure CacheStep (tf : List (Target × Fwd)) (s s' : State) : Prop where
  params : s'.params = s.params
  temperature : s'.temperature = s.temperature
  extra : s'.extra = s.extra
  ext : Ext s.cache s'.cache
  nodup : (dkeys s.cache).Nodup → (dkeys s'.cache).Nodup
  keys : ∀ k ∈ dkeys s'.cache, k ∈ dkeys s.cache ∨ ∃ x ∈ tf, k = dpredKey x.1.name

theorem CacheStep.refl (tf : List (Target × Fwd)) (s : State) : CacheStep tf s s :=
  ⟨rfl, rfl, rfl, Ext.refl _, id, fun _ h => Or.inl h⟩

theorem getDpred_keys (t : Target) (f : Fwd) (p : Params) (s : EvSt) :
    ((dkeys s.cache).Nodup → (dkeys (getDpred t f p s).2.cache).Nodup) ∧
    ∀ k ∈ dkeys (getDpred t f p s).2.cache, k ∈ dkeys s.cache ∨ k = dpredKey t.name := by
  unfold getDpred
  split
  · exact ⟨id, fun _ h => Or.inl h⟩
  · exact ⟨id, fun _ h => Or.inl h⟩
  · simp only
    split
    · exact ⟨id, fun _ h => Or.inl h⟩
    · refine ⟨fun h => nodup_dset _ _ _ h, fun k h => ?_⟩
      simp only [dkeys_dset] at h
      split at h
      · exact Or.inl h
      · rcases List.mem_append.1 h with h | h
        · exact Or.inl h
        · exact Or.inr (by simpa using h)

theorem misfitLoop_keys (p : Params) (tf : List (Target × Fwd)) : ∀ (m l : ℝ) (s : EvSt),
    ((dkeys s.cache).Nodup → (dkeys (misfitLoop p tf m l s).2.cache).Nodup) ∧
    ∀ k ∈ dkeys (misfitLoop p tf m l s).2.cache, k ∈ dkeys s.cache ∨
      ∃ x ∈ tf, k = dpredKey x.1.name := by
  induction tf with
  | nil => intro m l s; exact ⟨id, fun _ h => Or.inl h⟩
  | cons x tf ih =>
    obtain ⟨t, f⟩ := x
    intro m l s
    obtain ⟨h1, h2⟩ := getDpred_keys t f p s
    have h2' : ∀ k ∈ dkeys (getDpred t f p s).2.cache, k ∈ dkeys s.cache ∨
        ∃ x ∈ (t, f) :: tf, k = dpredKey x.1.name := by
      intro k hk
      rcases h2 k hk with h | h
      · exact Or.inl h
      · exact Or.inr ⟨(t, f), by simp, h⟩
    have cont : ∀ m' l', ((dkeys s.cache).Nodup →
          (dkeys (misfitLoop p tf m' l' (getDpred t f p s).2).2.cache).Nodup) ∧
        ∀ k ∈ dkeys (misfitLoop p tf m' l' (getDpred t f p s).2).2.cache, k ∈ dkeys s.cache ∨
          ∃ x ∈ (t, f) :: tf, k = dpredKey x.1.name := by
      intro m' l'
      obtain ⟨i1, i2⟩ := ih m' l' (getDpred t f p s).2
      refine ⟨fun h => i1 (h1 h), fun k hk => ?_⟩
      rcases i2 k hk with h | ⟨x, hx, h⟩
      · exact h2' k h
      · exact Or.inr ⟨x, by simp [hx], h⟩
    unfold misfitLoop
    split
    · rename_i h; rw [h] at h1 h2'; exact ⟨h1, h2'⟩
    · rename_i h
      rw [h] at h1 h2' cont
      split
      · exact ⟨h1, h2'⟩
      · split
        · split
          · exact ⟨h1, h2'⟩
          · exact cont _ _
        · exact cont _ _

theorem getMisfitAndDet_step (tf : List (Target × Fwd)) (s : State) :
    CacheStep tf s (getMisfitAndDet tf s).2.1 := by
  unfold getMisfitAndDet
  obtain ⟨h1, h2⟩ := misfitLoop_keys s.params tf 0 0 ⟨s.cache, []⟩
  exact ⟨rfl, rfl, rfl, misfitLoop_ext s.params tf 0 0 ⟨s.cache, []⟩, h1, h2⟩

/-- The predicted data of all targets are in the cache. -/
def Evaluated (tf : List (Target × Fwd)) (s : State) : Prop :=
  ∀ x ∈ tf, ∃ d, dget s.cache (dpredKey x.1.name) = some (.dpred d)

theorem misfitLoop_evaluated (p : Params) (tf : List (Target × Fwd)) : ∀ (m l : ℝ) (s e : EvSt)
    (v : ℝ × ℝ), misfitLoop p tf m l s = (.ok v, e) →
    ∀ x ∈ tf, ∃ d, dget e.cache (dpredKey x.1.name) = some (.dpred d) := by
  induction tf with
  | nil => intro m l s e v _ x hx; simp at hx
  | cons y tf ih =>
    obtain ⟨t, f⟩ := y
    intro m l s e v h x hx
    unfold misfitLoop at h
    split at h
    · simp at h
    · rename_i dpred s1 hd
      have hc := getDpred_ok hd
      have hh : ∀ (m l : ℝ), misfitLoop p tf m l s1 = (.ok v, e) →
          ∃ d, dget e.cache (dpredKey x.1.name) = some (.dpred d) := by
        intro m l h
        rcases List.mem_cons.1 hx with rfl | hx
        · have := misfitLoop_ext p tf m l s1
          rw [h] at this
          exact ⟨_, this _ _ hc⟩
        · exact ih _ _ _ _ _ h x hx
      split at h
      · simp at h
      · split at h
        · split at h
          · simp at h
          · exact hh _ _ h
        · exact hh _ _ h

theorem getMisfitAndDet_evaluated {tf : List (Target × Fwd)} {s s' : State} {v : ℝ × ℝ}
    {cs : List String} (h : getMisfitAndDet tf s = (.ok v, s', cs)) : Evaluated tf s' := by
  unfold getMisfitAndDet at h
  match hm : misfitLoop s.params tf 0 0 ⟨s.cache, []⟩ with
  | (r, e) =>
    rw [hm] at h
    simp only [Prod.mk.injEq] at h
    obtain ⟨rfl, rfl, rfl⟩ := h
    exact misfitLoop_evaluated _ _ _ _ _ _ _ hm

theorem ratioFromTargets_step (tf : List (Target × Fwd)) (old new : State) :
    CacheStep tf old (ratioFromTargets tf old new).2.1.1 ∧
    CacheStep tf new (ratioFromTargets tf old new).2.2.1 := by
  have h1 := getMisfitAndDet_step tf old
  have h2 := getMisfitAndDet_step tf new
  unfold ratioFromTargets
  split
  · rename_i h; rw [h] at h1; exact ⟨h1, CacheStep.refl _ _⟩
  · rename_i h; rw [h] at h1
    split
    · rename_i h'; rw [h'] at h2; exact ⟨h1, h2⟩
    · rename_i h'; rw [h'] at h2; exact ⟨h1, h2⟩

theorem ratioFromTargets_evaluated {tf : List (Target × Fwd)} {old new : State} {r : ℝ}
    {o n : State × List String} (h : ratioFromTargets tf old new = (.ok r, o, n)) :
    Evaluated tf o.1 ∧ Evaluated tf n.1 := by
  unfold ratioFromTargets at h
  split at h
  · simp at h
  · rename_i h1
    split at h
    · simp at h
    · rename_i h2
      simp only [Prod.mk.injEq] at h
      obtain ⟨-, rfl, rfl⟩ := h
      exact ⟨getMisfitAndDet_evaluated h1, getMisfitAndDet_evaluated h2⟩

section

variable (kind : LLKind State) (tf : List (Target × Fwd))
  (perturbs : List (String × (State → M (State × PyF)))) (weights : List ℝ)
  (spaces : Option (List (String × Bool))) (sd : Bool)

/-- Evaluating the likelihood only adds predicted data to the caches. -/
theorem llr_step (a b : State) (T : ℝ) :
    CacheStep tf a ((stateCfg kind tf perturbs weights spaces sd).llr a b T).2.1 ∧
    CacheStep tf b ((stateCfg kind tf perturbs weights spaces sd).llr a b T).2.2 := by
  cases kind with
  | targets =>
    have := ratioFromTargets_step tf a b
    simp only [stateCfg, logLikelihoodRatio]
    exact this
  | ratio f => exact ⟨CacheStep.refl _ _, CacheStep.refl _ _⟩
  | loglike f => exact ⟨CacheStep.refl _ _, CacheStep.refl _ _⟩

theorem llr_evaluated (a b : State) (T : ℝ) (r : PyF)
    (h : ((stateCfg .targets tf perturbs weights spaces sd).llr a b T).1 = .ok r) :
    Evaluated tf ((stateCfg .targets tf perturbs weights spaces sd).llr a b T).2.1 ∧
    Evaluated tf ((stateCfg .targets tf perturbs weights spaces sd).llr a b T).2.2 := by
  simp only [stateCfg, logLikelihoodRatio] at h ⊢
  match hr : ratioFromTargets tf a b with
  | (.error e, o, n) => rw [hr] at h; cases h
  | (.ok x, o, n) => exact ratioFromTargets_evaluated hr

end

end BB.Lemmas
