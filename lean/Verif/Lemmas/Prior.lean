import Verif.Lemmas.Rand
import Verif.Model.Prior
import Verif.Spec.Densities

/-!
# Lemmas about priors
-/

namespace BB.Lemmas

open BB BB.Spec

theorem bindE_ok {α β : Type} {m : Except PyErr α} {f : α → Except PyErr β} {b : β} :
    (m >>= f) = .ok b ↔ ∃ a, m = .ok a ∧ f a = .ok b := by
  cases m with
  | error e => constructor
               · intro h; cases h
               · rintro ⟨a, h, _⟩; cases h
  | ok a => constructor
            · intro h; exact ⟨a, rfl, h⟩
            · rintro ⟨a', h, h2⟩; injection h with h; subst h; exact h2

theorem pureE_ok {α : Type} {a b : α} : (pure a : Except PyErr α) = .ok b ↔ a = b := by
  constructor
  · intro h; injection h
  · rintro rfl; rfl

theorem lift_ok {α : Type} {x : Except PyErr α} {a : α} {t t' : List Draw} :
    M.lift x t = (.ok a, t') ↔ x = .ok a ∧ t = t' := by
  rw [M.lift_run]; exact Prod.mk.injEq .. ▸ Iff.rfl

theorem pure_ok {α : Type} {a b : α} {t t' : List Draw} :
    (pure a : M α) t = (.ok b, t') ↔ a = b ∧ t = t' := by
  rw [M.pure_run, Prod.mk.injEq, Except.ok.injEq]

theorem throw_ok {α : Type} {e : PyErr} {b : α} {t t' : List Draw} :
    (M.throw e : M α) t = (.ok b, t') ↔ False := by
  rw [M.throw_run]; simp

theorem draw_ok {d : Draw} {t t' : List Draw} : M.draw t = (.ok d, t') ↔ t = d :: t' := by
  cases t with
  | nil => simp [M.draw]
  | cons d' t => simp [M.draw]

theorem normalvariate_ok {m s x : ℝ} {t t' : List Draw} :
    M.normalvariate m s t = (.ok x, t') ↔ ∃ d, t = d :: t' ∧ x = m + d.z * s := by
  unfold M.normalvariate
  rw [M.bind_ok]
  constructor
  · rintro ⟨d, t1, h1, h2⟩
    rw [draw_ok] at h1
    rw [pure_ok] at h2
    obtain ⟨rfl, rfl⟩ := h2
    exact ⟨d, h1, rfl⟩
  · rintro ⟨d, h1, rfl⟩
    exact ⟨d, t', draw_ok.2 h1, rfl⟩

theorem pyLog_ok {x y : ℝ} : pyLog x = .ok y ↔ 0 < x ∧ y = Real.log x := by
  unfold pyLog
  split
  · rename_i h
    constructor
    · intro h2; injection h2 with h2; exact ⟨h, h2.symm⟩
    · rintro ⟨_, rfl⟩; rfl
  · rename_i h
    constructor
    · intro h2; cases h2
    · rintro ⟨h2, _⟩; exact absurd h2 h

/-- What a value perturbation of a prior of the library does, by kind of prior. -/
theorem perturbValue_uniform {p : Prior} {vmin vmax : Hyper} (hd : p.dist = .uniform vmin vmax)
    {v : ℝ} {pos : Pos} {isBirth : Bool} {t t' : List Draw} {new : ℝ} {r : PyF} :
    p.perturbValue v pos isBirth t = (.ok (new, r), t') ↔
      ∃ s a b d, p.getStd isBirth pos = .ok s ∧ vmin.get pos = .ok a ∧ vmax.get pos = .ok b ∧
        t = d :: t' ∧ new = v + d.z * s ∧
        (a ≤ new ∧ new ≤ b ∧ r = .fin 0 ∨ ¬ (a ≤ new ∧ new ≤ b) ∧ r = .ninf) := by
  unfold Prior.perturbValue
  rw [hd]
  simp only [M.bind_ok, lift_ok, normalvariate_ok, pure_ok]
  constructor
  · rintro ⟨s, t1, ⟨h1, rfl⟩, a, t2, ⟨h2, rfl⟩, b, t3, ⟨h3, rfl⟩, x, t4, ⟨d, h4, rfl⟩, h5, rfl⟩
    injection h5 with h5 h6
    refine ⟨s, a, b, d, h1, h2, h3, h4, by rw [← h5]; ring, ?_⟩
    rw [← h5, ← h6]
    split
    · rename_i h; exact .inl ⟨h.1, h.2, rfl⟩
    · rename_i h; exact .inr ⟨h, rfl⟩
  · rintro ⟨s, a, b, d, h1, h2, h3, h4, rfl, h5⟩
    refine ⟨s, t, ⟨h1, rfl⟩, a, t, ⟨h2, rfl⟩, b, t, ⟨h3, rfl⟩, 0 + d.z * s, t', ⟨d, h4, rfl⟩, ?_, rfl⟩
    rw [zero_add]
    rcases h5 with ⟨h5, h6, rfl⟩ | ⟨h5, rfl⟩
    · rw [if_pos ⟨h5, h6⟩]
    · rw [if_neg h5]

theorem perturbValue_gaussian {p : Prior} {mean std : Hyper} (hd : p.dist = .gaussian mean std)
    {v : ℝ} {pos : Pos} {isBirth : Bool} {t t' : List Draw} {new : ℝ} {r : PyF} :
    p.perturbValue v pos isBirth t = (.ok (new, r), t') ↔
      ∃ s m sd d, p.getStd isBirth pos = .ok s ∧ mean.get pos = .ok m ∧ std.get pos = .ok sd ∧
        t = d :: t' ∧ new = v + d.z * s ∧ sd ≠ 0 ∧
        r = .fin ((v - new) * (v + new - 2 * m) / (2 * sd ^ 2)) := by
  unfold Prior.perturbValue
  rw [hd]
  simp only [M.bind_ok, lift_ok, normalvariate_ok]
  constructor
  · rintro ⟨s, t1, ⟨h1, rfl⟩, x, t4, ⟨d, h4, rfl⟩, a, t2, ⟨h2, rfl⟩, b, t3, ⟨h3, rfl⟩, h5⟩
    split at h5
    · rw [throw_ok] at h5; exact h5.elim
    · rename_i hne
      rw [pure_ok] at h5
      obtain ⟨h5, rfl⟩ := h5
      injection h5 with h5 h6
      refine ⟨s, a, b, d, h1, h2, h3, h4, by rw [← h5]; ring, ?_, ?_⟩
      · rintro rfl; simp at hne
      · rw [← h6, ← h5]
  · rintro ⟨s, m, sd, d, h1, h2, h3, h4, rfl, h5, rfl⟩
    refine ⟨s, t, ⟨h1, rfl⟩, 0 + d.z * s, t', ⟨d, h4, rfl⟩, m, t', ⟨h2, rfl⟩, sd, t', ⟨h3, rfl⟩, ?_⟩
    rw [if_neg (by simpa using h5), pure_ok, zero_add]
    exact ⟨rfl, rfl⟩

theorem perturbValue_laplace {p : Prior} {mean scale : Hyper} (hd : p.dist = .laplace mean scale)
    {v : ℝ} {pos : Pos} {isBirth : Bool} {t t' : List Draw} {new : ℝ} {r : PyF} :
    p.perturbValue v pos isBirth t = (.ok (new, r), t') ↔
      ∃ s m sc d, p.getStd isBirth pos = .ok s ∧ mean.get pos = .ok m ∧ scale.get pos = .ok sc ∧
        t = d :: t' ∧ new = v + d.z * s ∧ sc ≠ 0 ∧ r = .fin ((|v - m| - |new - m|) / sc) := by
  unfold Prior.perturbValue
  rw [hd]
  simp only [M.bind_ok, lift_ok, normalvariate_ok]
  constructor
  · rintro ⟨s, t1, ⟨h1, rfl⟩, x, t4, ⟨d, h4, rfl⟩, a, t2, ⟨h2, rfl⟩, b, t3, ⟨h3, rfl⟩, h5⟩
    split at h5
    · rw [throw_ok] at h5; exact h5.elim
    · rename_i hne
      rw [pure_ok] at h5
      obtain ⟨h5, rfl⟩ := h5
      injection h5 with h5 h6
      exact ⟨s, a, b, d, h1, h2, h3, h4, by rw [← h5]; ring, hne, by rw [← h6, ← h5]⟩
  · rintro ⟨s, m, sd, d, h1, h2, h3, h4, rfl, h5, rfl⟩
    refine ⟨s, t, ⟨h1, rfl⟩, 0 + d.z * s, t', ⟨d, h4, rfl⟩, m, t', ⟨h2, rfl⟩, sd, t', ⟨h3, rfl⟩, ?_⟩
    rw [if_neg h5, pure_ok, zero_add]
    exact ⟨rfl, rfl⟩

theorem perturbValue_custom {p : Prior} {f : ℝ → Pos → Except PyErr PyF} {g : ℝ → Except PyErr PyF}
    {sm : Pos → M ℝ} (hd : p.dist = .custom f g sm) {v : ℝ} {pos : Pos} {isBirth : Bool}
    {t t' : List Draw} {new : ℝ} {r : PyF} :
    p.perturbValue v pos isBirth t = (.ok (new, r), t') ↔
      isBirth = true ∧ ∃ s d x y, p.getStd true pos = .ok s ∧ t = d :: t' ∧ new = v + d.z * s ∧
        p.logPrior new pos = .ok x ∧ p.logPrior v pos = .ok y ∧ r = x.sub y := by
  unfold Prior.perturbValue
  rw [hd]
  cases isBirth with
  | false => simp [throw_ok]
  | true =>
    simp only [if_true, M.bind_ok, lift_ok, normalvariate_ok, pure_ok, true_and]
    constructor
    · rintro ⟨s, t1, ⟨h1, rfl⟩, x, t4, ⟨d, h4, rfl⟩, a, t2, ⟨h2, rfl⟩, b, t3, ⟨h3, rfl⟩, h5, rfl⟩
      injection h5 with h5 h6
      rw [zero_add] at h2 h5
      exact ⟨s, d, a, b, h1, h4, h5.symm, h5 ▸ h2, h3, h6.symm⟩
    · rintro ⟨s, d, x, y, h1, h4, rfl, h2, h3, rfl⟩
      refine ⟨s, t, ⟨h1, rfl⟩, 0 + d.z * s, t', ⟨d, h4, rfl⟩, x, t', ⟨?_, rfl⟩, y, t', ⟨h3, rfl⟩, ?_, rfl⟩
      · rw [zero_add]; exact h2
      · rw [zero_add]

/-- The values of `log_prior`. -/
theorem logPrior_uniform {p : Prior} {vmin vmax : Hyper} (hd : p.dist = .uniform vmin vmax)
    {v : ℝ} {pos : Pos} {l : PyF} :
    p.logPrior v pos = .ok l ↔ ∃ a b, vmin.get pos = .ok a ∧ vmax.get pos = .ok b ∧
      (a ≤ v ∧ v ≤ b ∧ a < b ∧ l = .fin (-Real.log (b - a)) ∨ ¬ (a ≤ v ∧ v ≤ b) ∧ l = .ninf) := by
  unfold Prior.logPrior
  rw [hd]
  simp only [bindE_ok]
  constructor
  · rintro ⟨a, h1, b, h2, h3⟩
    refine ⟨a, b, h1, h2, ?_⟩
    split at h3
    · rename_i h
      rw [bindE_ok] at h3
      obtain ⟨x, hx, h3⟩ := h3
      rw [pyLog_ok] at hx
      rw [pureE_ok] at h3
      exact .inl ⟨h.1, h.2, by linarith [hx.1], by rw [← h3, hx.2]⟩
    · rename_i h
      rw [pureE_ok] at h3
      exact .inr ⟨h, h3.symm⟩
  · rintro ⟨a, b, h1, h2, h3⟩
    refine ⟨a, h1, b, h2, ?_⟩
    rcases h3 with ⟨h3, h4, h5, rfl⟩ | ⟨h3, rfl⟩
    · rw [if_pos ⟨h3, h4⟩, bindE_ok]
      exact ⟨_, pyLog_ok.2 ⟨by linarith, rfl⟩, rfl⟩
    · rw [if_neg h3]; rfl

theorem logPrior_gaussian {p : Prior} {mean std : Hyper} (hd : p.dist = .gaussian mean std)
    {v : ℝ} {pos : Pos} {l : PyF} :
    p.logPrior v pos = .ok l ↔ ∃ m s, mean.get pos = .ok m ∧ std.get pos = .ok s ∧
      (s < 0 ∧ l = .nan ∨ 0 < s ∧
        l = .fin (-0.5 * Real.log (2 * Real.pi) - Real.log s - 0.5 * ((v - m) / s) ^ 2)) := by
  unfold Prior.logPrior
  rw [hd]
  simp only [bindE_ok]
  constructor
  · rintro ⟨m, h1, s, h2, h3⟩
    refine ⟨m, s, h1, h2, ?_⟩
    split at h3
    · cases h3
    · rename_i hne
      split at h3
      · rename_i hneg
        rw [pureE_ok] at h3
        exact .inl ⟨hneg, h3.symm⟩
      · rename_i hneg
        rw [pureE_ok] at h3
        exact .inr ⟨lt_of_le_of_ne (not_lt.1 hneg) (Ne.symm hne), h3.symm⟩
  · rintro ⟨m, s, h1, h2, h3⟩
    refine ⟨m, h1, s, h2, ?_⟩
    rcases h3 with ⟨h3, rfl⟩ | ⟨h3, rfl⟩
    · rw [if_neg h3.ne, if_pos h3]; rfl
    · rw [if_neg h3.ne', if_neg (not_lt.2 h3.le)]; rfl

theorem logPrior_laplace {p : Prior} {mean scale : Hyper} (hd : p.dist = .laplace mean scale)
    {v : ℝ} {pos : Pos} {l : PyF} :
    p.logPrior v pos = .ok l ↔ ∃ m s, mean.get pos = .ok m ∧ scale.get pos = .ok s ∧ 0 < s ∧
      l = .fin (-Real.log 2 - Real.log s - |v - m| / s) := by
  unfold Prior.logPrior
  rw [hd]
  simp only [bindE_ok, pyLog_ok, pureE_ok]
  constructor
  · rintro ⟨m, h1, s, h2, x, ⟨h3, rfl⟩, rfl⟩
    exact ⟨m, s, h1, h2, h3, rfl⟩
  · rintro ⟨m, s, h1, h2, h3, rfl⟩
    exact ⟨m, h1, s, h2, _, ⟨h3, rfl⟩, rfl⟩

/-- Whether a prior is one of the library. -/
def _root_.BB.Prior.builtin (p : Prior) : Prop :=
  match p.dist with
  | .custom _ _ _ => False
  | _ => True

theorem sub_fin (x y : ℝ) : (PyF.fin x).sub (.fin y) = .fin (x - y) := by
  simp [PyF.sub, PyF.neg, PyF.add, sub_eq_add_neg]

/-- The ratio that is reported is the difference of the log priors, if the old value has a positive
density. -/
theorem perturbValue_ratio {p : Prior} {v : ℝ} {pos : Pos} {isBirth : Bool} {t t' : List Draw}
    {new : ℝ} {r : PyF} (h : p.perturbValue v pos isBirth t = (.ok (new, r), t')) {x : ℝ}
    (hv : p.logPrior v pos = .ok (.fin x)) :
    ∃ y, p.logPrior new pos = .ok y ∧ r = y.sub (.fin x) := by
  match hd : p.dist with
  | .uniform vmin vmax =>
    obtain ⟨s, a, b, d, h1, h2, h3, h4, h5, h6⟩ := (perturbValue_uniform hd).1 h
    obtain ⟨a', b', h7, h8, h9⟩ := (logPrior_uniform hd).1 hv
    rw [h2] at h7; injection h7 with h7; subst h7
    rw [h3] at h8; injection h8 with h8; subst h8
    rcases h9 with ⟨_, _, hlt, hx⟩ | ⟨_, hx⟩
    · injection hx with hx
      rcases h6 with ⟨h6, h6', rfl⟩ | ⟨h6, rfl⟩
      · refine ⟨_, (logPrior_uniform hd).2 ⟨a, b, h2, h3, .inl ⟨h6, h6', hlt, rfl⟩⟩, ?_⟩
        rw [sub_fin, hx, sub_self]
      · exact ⟨_, (logPrior_uniform hd).2 ⟨a, b, h2, h3, .inr ⟨h6, rfl⟩⟩, rfl⟩
    · cases hx
  | .gaussian mean std =>
    obtain ⟨s, m, sd, d, h1, h2, h3, h4, h5, h6, rfl⟩ := (perturbValue_gaussian hd).1 h
    obtain ⟨m', sd', h7, h8, h9⟩ := (logPrior_gaussian hd).1 hv
    rw [h2] at h7; injection h7 with h7; subst h7
    rw [h3] at h8; injection h8 with h8; subst h8
    rcases h9 with ⟨_, hx⟩ | ⟨hpos, hx⟩
    · cases hx
    · injection hx with hx
      refine ⟨_, (logPrior_gaussian hd).2 ⟨m, sd, h2, h3, .inr ⟨hpos, rfl⟩⟩, ?_⟩
      rw [sub_fin, hx]
      congr 1
      field_simp
      ring
  | .laplace mean scale =>
    obtain ⟨s, m, sd, d, h1, h2, h3, h4, h5, h6, rfl⟩ := (perturbValue_laplace hd).1 h
    obtain ⟨m', sd', h7, h8, hpos, hx⟩ := (logPrior_laplace hd).1 hv
    rw [h2] at h7; injection h7 with h7; subst h7
    rw [h3] at h8; injection h8 with h8; subst h8
    injection hx with hx
    refine ⟨_, (logPrior_laplace hd).2 ⟨m, sd, h2, h3, hpos, rfl⟩, ?_⟩
    rw [sub_fin, hx]
    congr 1
    ring
  | .custom f g sm =>
    obtain ⟨_, s, d, y, z, h1, h2, h3, h4, h5, h6⟩ := (perturbValue_custom hd).1 h
    rw [hv] at h5
    injection h5 with h5
    subst h5
    exact ⟨y, h4, h6⟩

end BB.Lemmas
