import Verif.Lemmas.Likelihood

/-!
# The cache of predicted data
-/

namespace BB.Lemmas

open BB BB.Spec BB.Utils1d

theorem dpredKey_inj {a b : String} (h : dpredKey a = dpredKey b) : a = b := by
  unfold dpredKey at h
  exact (String.append_left_inj _).1 h

/-- `b` contains all the entries of `a`. -/
def Ext (a b : List (String × CVal)) : Prop := ∀ k v, dget a k = some v → dget b k = some v

theorem Ext.refl (a : List (String × CVal)) : Ext a a := fun _ _ h => h

theorem Ext.trans {a b c : List (String × CVal)} (h1 : Ext a b) (h2 : Ext b c) : Ext a c :=
  fun k v h => h2 k v (h1 k v h)

theorem getDpred_cached {t : Target} {f : Fwd} {p : Params} {s : EvSt} {d : List ℝ}
    (h : dget s.cache (dpredKey t.name) = some (.dpred d)) : getDpred t f p s = (.ok d, s) := by
  simp [getDpred, h]

theorem getDpred_ext (t : Target) (f : Fwd) (p : Params) (s : EvSt) :
    Ext s.cache (getDpred t f p s).2.cache := by
  unfold getDpred
  split
  · exact Ext.refl _
  · exact Ext.refl _
  · rename_i h
    split
    · exact Ext.refl _
    · intro k v hk
      simp only
      by_cases hkk : k = dpredKey t.name
      · subst hkk; rw [h] at hk; simp at hk
      · rw [dget_dset_ne _ _ _ _ hkk]; exact hk

theorem getDpred_ok {t : Target} {f : Fwd} {p : Params} {s s' : EvSt} {d : List ℝ}
    (h : getDpred t f p s = (.ok d, s')) : dget s'.cache (dpredKey t.name) = some (.dpred d) := by
  unfold getDpred at h
  split at h
  · rename_i h1
    injection h with h2 h3
    injection h2 with h2
    subst h2; subst h3; exact h1
  · simp at h
  · split at h
    · simp at h
    · injection h with h2 h3
      injection h2 with h2
      subst h2; subst h3
      exact dget_dset_same _ _ _

theorem misfitLoop_ext (p : Params) (tf : List (Target × Fwd)) : ∀ (m l : ℝ) (s : EvSt),
    Ext s.cache (misfitLoop p tf m l s).2.cache := by
  induction tf with
  | nil => intro m l s; exact Ext.refl _
  | cons x tf ih =>
    obtain ⟨t, f⟩ := x
    intro m l s
    have h1 := getDpred_ext t f p s
    unfold misfitLoop
    split
    · rename_i h; rw [h] at h1; exact h1
    · rename_i h
      rw [h] at h1
      split
      · exact h1
      · split
        · split
          · exact h1
          · exact h1.trans (ih _ _ _)
        · exact h1.trans (ih _ _ _)

/-- Evaluating again, with any larger cache, gives the same result without calling anything. -/
theorem misfitLoop_again (p : Params) (tf : List (Target × Fwd)) : ∀ (m l : ℝ) (s e : EvSt)
    (v : ℝ × ℝ), misfitLoop p tf m l s = (.ok v, e) →
    ∀ s2 : EvSt, Ext e.cache s2.cache → misfitLoop p tf m l s2 = (.ok v, s2) := by
  induction tf with
  | nil =>
    intro m l s e v h s2 _
    simp only [misfitLoop] at h ⊢
    injection h with h1 h2
    injection h1 with h1
    rw [h1]
  | cons x tf ih =>
    obtain ⟨t, f⟩ := x
    intro m l s e v h s2 hx
    unfold misfitLoop at h
    split at h
    · simp at h
    · rename_i dpred s1 hd
      have hc := getDpred_ok hd
      split at h
      · simp at h
      · rename_i q hq
        have hh : ∀ (m l : ℝ), misfitLoop p tf m l s1 = (.ok v, e) →
            dget s2.cache (dpredKey t.name) = some (.dpred dpred) := by
          intro m l h
          have := misfitLoop_ext p tf m l s1
          rw [h] at this
          exact hx _ _ (this _ _ hc)
        unfold misfitLoop
        split at h
        · rename_i hh1
          split at h
          · simp at h
          · rename_i l1 hl1
            rw [getDpred_cached (hh _ _ h)]
            simp only [hq, hh1, if_true]
            exact ih _ _ _ _ _ h _ hx
        · rename_i hh1
          rw [getDpred_cached (hh _ _ h)]
          simp only [hq, if_neg hh1]
          exact ih _ _ _ _ _ h _ hx

/-- Coherence for the evaluation state. -/
def CohC (tf : List (Target × Fwd)) (p : Params) (c : List (String × CVal)) : Prop :=
  ∀ x ∈ tf, ∀ v, dget c (dpredKey x.1.name) = some v → ∃ d, v = .dpred d ∧ x.2 p = some d

theorem getDpred_coh {tf : List (Target × Fwd)} {p : Params} {s : EvSt}
    (hnd : (tf.map (·.1.name)).Nodup) (hc : CohC tf p s.cache) {t : Target} {f : Fwd}
    (hx : (t, f) ∈ tf) :
    (getDpred t f p s).1 = ((f p).elim (.error .forward) .ok) ∧
    CohC tf p (getDpred t f p s).2.cache ∧
    (getDpred t f p s).2.calls = s.calls ++
      (if dget s.cache (dpredKey t.name) = none then [t.name] else []) ∧
    (∀ k, k ≠ dpredKey t.name → dget (getDpred t f p s).2.cache k = dget s.cache k) := by
  match hv : dget s.cache (dpredKey t.name) with
  | some v =>
    obtain ⟨d, rfl, hd⟩ := hc _ hx _ hv
    rw [getDpred_cached hv]
    simp only at hd
    exact ⟨by simp [hd], hc, by simp, fun k hk => rfl⟩
  | none =>
    unfold getDpred
    simp only [hv]
    match hf : f p with
    | none => exact ⟨by simp, hc, by simp, fun k hk => rfl⟩
    | some d =>
      refine ⟨by simp, ?_, by simp, fun k hk => dget_dset_ne _ _ _ _ hk⟩
      intro y hy v hvy
      simp only at hvy
      by_cases hk : y.1.name = t.name
      · have : y = (t, f) := List.inj_on_of_nodup_map hnd hy hx hk
        subst this
        simp only at hvy
        rw [dget_dset_same] at hvy
        injection hvy with hvy
        exact ⟨d, hvy.symm, hf⟩
      · rw [dget_dset_ne _ _ _ _ (fun h => hk (dpredKey_inj h))] at hvy
        exact hc y hy v hvy

/-- The accumulating step of `freshEval`. -/
noncomputable def freshStep (p : Params) (acc : ℝ × ℝ) (x : Target × Fwd) : Except PyErr (ℝ × ℝ) :=
  do
    let d ← (x.2 p).elim (.error .forward) .ok
    let q ← x.1.misfit p d
    let l ← if x.1.hierarchical then x.1.logDet p else pure 0
    pure (acc.1 + q, acc.2 + l)

theorem freshEval_eq (p : Params) (tf : List (Target × Fwd)) :
    freshEval p tf = tf.foldlM (freshStep p) (0, 0) := rfl

/-- The names of the targets of `tf` without a cached prediction in `c`. -/
def missing (tf : List (Target × Fwd)) (c : List (String × CVal)) : List String :=
  (tf.filter fun x => (dget c (dpredKey x.1.name)).isNone).map (·.1.name)

theorem misfitLoop_coh (all : List (Target × Fwd)) (p : Params)
    (hnd : (all.map (·.1.name)).Nodup) (tf : List (Target × Fwd)) :
    ∀ (m l : ℝ) (s : EvSt), List.Sublist tf all → CohC all p s.cache →
      (misfitLoop p tf m l s).1 = tf.foldlM (freshStep p) (m, l) ∧
      CohC all p (misfitLoop p tf m l s).2.cache ∧
      (∃ cs, (misfitLoop p tf m l s).2.calls = s.calls ++ cs ∧ cs <+: missing tf s.cache ∧
        ∀ v, (misfitLoop p tf m l s).1 = .ok v → cs = missing tf s.cache) ∧
      (∀ k, (∀ x ∈ tf, k ≠ dpredKey x.1.name) →
        dget (misfitLoop p tf m l s).2.cache k = dget s.cache k) := by
  induction tf with
  | nil =>
    intro m l s _ hc
    refine ⟨rfl, hc, ⟨[], by simp [misfitLoop], by simp [missing], ?_⟩, ?_⟩
    · intro v _; rfl
    · intro k _; rfl
  | cons x tf ih =>
    obtain ⟨t, f⟩ := x
    intro m l s hsub hc
    have hx : (t, f) ∈ all := hsub.subset (by simp)
    obtain ⟨g1, g2, g3, g4⟩ := getDpred_coh hnd hc hx
    have hsub' : List.Sublist tf all := (List.sublist_cons_self _ _).trans hsub
    have hnd' : (((t, f) :: tf).map (·.1.name)).Nodup := hnd.sublist (hsub.map _)
    have hmiss : missing tf (getDpred t f p s).2.cache = missing tf s.cache := by
      unfold missing
      congr 1
      apply List.filter_congr
      intro y hy
      rw [g4]
      intro h
      have := dpredKey_inj h
      simp only [List.map_cons, List.nodup_cons] at hnd'
      exact hnd'.1 (this ▸ List.mem_map_of_mem hy)
    have hmc : missing ((t, f) :: tf) s.cache =
        (if dget s.cache (dpredKey t.name) = none then [t.name] else []) ++ missing tf s.cache := by
      unfold missing
      by_cases h : dget s.cache (dpredKey t.name) = none <;> simp [h]
    have hpre : (if dget s.cache (dpredKey t.name) = none then [t.name] else [])
        <+: missing ((t, f) :: tf) s.cache := by
      rw [hmc]; exact List.prefix_append _ _
    rw [List.foldlM_cons]
    -- the continuation
    have key : ∀ (m' l' : ℝ),
        (misfitLoop p tf m' l' (getDpred t f p s).2).1 = tf.foldlM (freshStep p) (m', l') ∧
        CohC all p (misfitLoop p tf m' l' (getDpred t f p s).2).2.cache ∧
        (∃ cs, (misfitLoop p tf m' l' (getDpred t f p s).2).2.calls = s.calls ++ cs ∧
          cs <+: missing ((t, f) :: tf) s.cache ∧
          ∀ v, (misfitLoop p tf m' l' (getDpred t f p s).2).1 = .ok v →
            cs = missing ((t, f) :: tf) s.cache) ∧
        (∀ k, (∀ x ∈ (t, f) :: tf, k ≠ dpredKey x.1.name) →
          dget (misfitLoop p tf m' l' (getDpred t f p s).2).2.cache k = dget s.cache k) := by
      intro m' l'
      obtain ⟨i1, i2, ⟨cs, i3, i4, i5⟩, i6⟩ := ih m' l' (getDpred t f p s).2 hsub' g2
      refine ⟨i1, i2, ⟨(if dget s.cache (dpredKey t.name) = none then [t.name] else []) ++ cs,
        ?_, ?_, ?_⟩, ?_⟩
      · rw [i3, g3, List.append_assoc]
      · rw [hmc, hmiss.symm]
        exact (List.prefix_append_right_inj _).2 i4
      · intro v hv
        rw [i5 v hv, hmc, hmiss]
      · intro k hk
        rw [i6 k (fun x hx => hk x (List.mem_cons_of_mem _ hx)), g4 k (hk (t, f) (by simp))]
    have stop : ∀ e : PyErr,
        CohC all p (getDpred t f p s).2.cache ∧
        (∃ cs, (getDpred t f p s).2.calls = s.calls ++ cs ∧
          cs <+: missing ((t, f) :: tf) s.cache ∧
          ∀ v, (Except.error e : Except PyErr (ℝ × ℝ)) = .ok v →
            cs = missing ((t, f) :: tf) s.cache) ∧
        (∀ k, (∀ x ∈ (t, f) :: tf, k ≠ dpredKey x.1.name) →
          dget (getDpred t f p s).2.cache k = dget s.cache k) :=
      fun e => ⟨g2, ⟨_, g3, hpre, fun v hv => by simp at hv⟩, fun k hk => g4 k (hk (t, f) (by simp))⟩
    unfold misfitLoop
    match hg : getDpred t f p s with
    | (.error e, s1) =>
      rw [hg] at g1 stop
      simp only at g1 stop ⊢
      refine ⟨?_, stop e⟩
      simp only [freshStep, ← g1]
      rfl
    | (.ok d, s1) =>
      rw [hg] at g1 key stop
      simp only at g1 key stop ⊢
      match hq : t.misfit p d with
      | .error e =>
        simp only
        refine ⟨?_, stop e⟩
        simp only [freshStep, ← g1, ok_bind, hq]
        rfl
      | .ok q =>
        simp only
        by_cases hh : t.hierarchical
        · simp only [hh, if_true]
          match hl : t.logDet p with
          | .error e =>
            simp only
            refine ⟨?_, stop e⟩
            simp only [freshStep, ← g1, ok_bind, hq, hh, if_true, hl]
            rfl
          | .ok l1 =>
            simp only
            have : (do let s' ← freshStep p (m, l) (t, f); List.foldlM (freshStep p) s' tf)
                = List.foldlM (freshStep p) (m + q, l + l1) tf := by
              simp only [freshStep, ← g1, ok_bind, hq, hh, if_true, hl]
              rfl
            rw [this]
            exact key _ _
        · simp only [hh]
          have : (do let s' ← freshStep p (m, l) (t, f); List.foldlM (freshStep p) s' tf)
              = List.foldlM (freshStep p) (m + q, l) tf := by
            simp only [freshStep, ← g1, ok_bind, hq, hh]
            change List.foldlM (freshStep p) (m + q, l + 0) tf = _
            rw [add_zero]
          rw [this]
          exact key _ _

theorem getMisfitAndDet_coh (tf : List (Target × Fwd)) (s : State)
    (hnd : (tf.map (·.1.name)).Nodup) (hc : Coherent tf s) :
    (getMisfitAndDet tf s).1 = freshEval s.params tf ∧
    Coherent tf (getMisfitAndDet tf s).2.1 ∧
    (getMisfitAndDet tf s).2.1.params = s.params ∧
    (getMisfitAndDet tf s).2.2 <+: missing tf s.cache ∧
    (∀ v, (getMisfitAndDet tf s).1 = .ok v → (getMisfitAndDet tf s).2.2 = missing tf s.cache) := by
  obtain ⟨h1, h2, ⟨cs, h3, h4, h5⟩, _⟩ :=
    misfitLoop_coh tf s.params hnd tf 0 0 ⟨s.cache, []⟩ (List.Sublist.refl _) hc
  have h3' : (misfitLoop s.params tf 0 0 ⟨s.cache, []⟩).2.calls = cs := by simpa using h3
  unfold getMisfitAndDet
  refine ⟨h1, h2, rfl, ?_, ?_⟩
  · simp only [h3']; exact h4
  · intro v hv
    simp only [h3']
    exact h5 v hv

theorem getMisfitAndDet_again (tf : List (Target × Fwd)) (s s' : State) (v : ℝ × ℝ)
    (cs : List String) (h : getMisfitAndDet tf s = (.ok v, s', cs)) :
    getMisfitAndDet tf s' = (.ok v, s', []) := by
  unfold getMisfitAndDet at h
  match hm : misfitLoop s.params tf 0 0 ⟨s.cache, []⟩ with
  | (r, e) =>
    rw [hm] at h
    simp only [Prod.mk.injEq] at h
    obtain ⟨rfl, rfl, rfl⟩ := h
    have := misfitLoop_again _ _ _ _ _ _ _ hm ⟨e.cache, []⟩ (Ext.refl _)
    unfold getMisfitAndDet
    simp only
    rw [this]

end BB.Lemmas
