import Verif.Lemmas.SiteRun

/-!
# The perturbations of values and sites as moves of a row
-/

namespace BB.Lemmas

open BB BB.Spec BB.Props MeasureTheory ProbabilityTheory

theorem joins_funcs {X : Type} (a b : List (PSFunc × ℝ)) (val : PSState → X) (logLik : X → ℝ) :
    Joins (funcsChain (a ++ b) val logLik) (funcsChain a val logLik) (funcsChain b val logLik) where
  perturbs := List.map_append
  weights := List.map_append
  llr1 := rfl
  llr2 := rfl
  len1 := by simp [funcsChain]
  len2 := by simp [funcsChain]

section

variable {P Θ : Type} [MeasurableSpace P] [MeasurableSpace Θ] {k : ℕ}

/-- The states that are considered: they hold rows with the property `Good`. -/
def RowInv (prs : Fin k → Prior) (col : List P → List (String × PVal)) (lo hi : ℕ)
    (Good : List (P × (Fin k → ℝ)) → Prop) (s : PSState) : Prop :=
  ∃ l, Holds col prs l s ∧ lo ≤ l.length ∧ l.length ≤ hi ∧ Good l

theorem quotient_logOf {a b : ℝ} (hb : 0 < b) (ha : 0 ≤ a) : logOf (a / b) = (logQuotient a b).num := by
  unfold logOf logQuotient
  rcases ha.eq_or_lt with rfl | ha
  · rw [zero_div, if_neg (lt_irrefl _), if_pos rfl]
    rfl
  · rw [if_pos (div_pos ha hb), if_neg ha.ne']
    rfl

theorem ofRows_prod {R : Type} (F : R → ℝ) (l : List R) : ∏ i, F ((ofRows l).2 i) = (l.map F).prod := by
  rw [← List.prod_ofFn]
  congr 1
  change List.ofFn (F ∘ l.get) = _
  rw [← List.map_ofFn, List.ofFn_get]

theorem set_prod {R : Type} (F : R → ℝ) {l : List R} {i : ℕ} (hi : i < l.length) (y : R) :
    F l[i] * ((l.set i y).map F).prod = F y * (l.map F).prod := by
  induction l generalizing i with
  | nil => exact absurd hi (by simp)
  | cons a l ih =>
    rcases i with _ | i
    · simp only [List.set_cons_zero, List.map_cons, List.prod_cons, List.getElem_cons_zero]
      ring
    · simp only [List.set_cons_succ, List.map_cons, List.prod_cons, List.getElem_cons_succ]
      have := ih (i := i) (by simpa using hi)
      linear_combination F a * this

theorem moveRow_rows {R : Type} (mv : R → Θ → R) {hi : ℕ} {l : List R} (hhi : l.length ≤ hi) (m : ℕ)
    (hm : m % l.length < l.length) (θ : Θ) :
    List.ofFn (moveRow mv hi (ofRows l) m θ).2 = l.set (m % l.length) (mv l[m % l.length] θ) := by
  unfold moveRow
  rw [if_neg (show ¬ hi < (ofRows l).1 from not_lt.2 hhi)]
  refine List.ext_getElem (by simp [ofRows, tup]) fun i h1 h2 => ?_
  rw [List.getElem_ofFn, List.getElem_set]
  change (if i = m % l.length then mv (l.get _) θ else l.get _) = _
  by_cases h : i = m % l.length
  · subst h
    rw [if_pos rfl, if_pos rfl]
    rfl
  · rw [if_neg h, if_neg (Ne.symm h)]
    rfl

/-- A perturbation that moves a row. -/
theorem move_reports {prs : Fin k → Prior} {col : List P → List (String × PVal)} {lo hi : ℕ} (hlo : 1 ≤ lo)
    {Good : List (P × (Fin k → ℝ)) → Prop} {f : PSFunc × ℝ} {mv : P × (Fin k → ℝ) → Θ → P × (Fin k → ℝ)} {μ : Measure Θ}
    [IsProbabilityMeasure μ] {F : P × (Fin k → ℝ) → ℝ} (hF : ∀ r, 0 ≤ F r)
    (val : PSState → Tuple (P × (Fin k → ℝ))) (hval : ∀ l s, Holds col prs l s → val s = ofRows l)
    (enc : PSState → ℕ × Θ → List Draw)
    (hstep : ∀ l s, Holds col prs l s → Good l → ∀ (m : ℕ) (hm : m % l.length < l.length), ∀ᵐ θ ∂μ, ∃ l' s' lpr,
      l'.Perm (l.set (m % l.length) (mv l[m % l.length] θ)) ∧ Holds col prs l' s' ∧ Good l' ∧
      (∀ rest, f.1.run s (enc s (m, θ) ++ rest) = (.ok (s', lpr), rest)) ∧
      (0 < F l[m % l.length] → lpr = logOf (F (mv l[m % l.length] θ) / F l[m % l.length])))
    (logLik : Tuple (P × (Fin k → ℝ)) → ℝ) (T : ℝ) (ν : Measure (P × (Fin k → ℝ))) :
    Reports (funcsChain [f] val logLik) (rowMove ν F μ mv lo hi) logLik T (fun _ => enc) val (RowInv prs col lo hi Good)
      SameRows where
  likelihood := fun s new hs hn => ⟨s, new, rfl, hs, hn, SameRows.refl _, SameRows.refl _⟩
  proposal := by
    rintro ⟨i, hi'⟩ s ⟨l, hl, h1, h2, hg⟩
    have hi0 : i = 0 := by
      have : i < 1 := hi'
      omega
    subst hi0
    have := uniformNat_prob (Nat.factorial_ne_zero hi)
    have hpos : 0 < l.length := by omega
    have hae : ∀ᵐ θ ∂μ, ∀ m : ℕ, ∃ l' s' lpr, l'.Perm (l.set (m % l.length) (mv (l[m % l.length]'(Nat.mod_lt _ hpos)) θ)) ∧
        Holds col prs l' s' ∧ Good l' ∧ (∀ rest, f.1.run s (enc s (m, θ) ++ rest) = (.ok (s', lpr), rest)) ∧
        (0 < F (l[m % l.length]'(Nat.mod_lt _ hpos)) → lpr = logOf (F (mv (l[m % l.length]'(Nat.mod_lt _ hpos)) θ) /
          F (l[m % l.length]'(Nat.mod_lt _ hpos)))) :=
      ae_all_iff.2 fun m => hstep l s hl hg m (Nat.mod_lt _ hpos)
    have hae2 := (Measure.quasiMeasurePreserving_snd (μ := uniformNat hi.factorial) (ν := μ)).ae hae
    refine hae2.mono fun θ hθ => ?_
    obtain ⟨m, θ⟩ := θ
    obtain ⟨l', s', lpr, e1, e2, e3, e4, e5⟩ := hθ m
    have hvs : val s = ofRows l := hval l s hl
    have hm := Nat.mod_lt m hpos
    have hlen : l'.length = l.length := by rw [e1.length_eq, List.length_set]
    refine ⟨s', lpr, e4, ⟨l', e2, by rw [hlen]; exact h1, by rw [hlen]; exact h2, e3⟩, ?_, fun hne => ?_⟩
    · rw [hval l' s' e2, hvs]
      unfold SameRows
      rw [rows_ofRows]
      refine e1.trans ?_
      change List.Perm _ (List.ofFn (moveRow mv hi (ofRows l) m θ).2)
      rw [moveRow_rows mv h2 m hm θ]
    · rw [hvs] at hne ⊢
      change ∏ i, F ((ofRows l).2 i) ≠ 0 at hne
      change lpr = (logQuotient (∏ i, F ((moveRow mv hi (ofRows l) m θ).2 i)) (∏ i, F ((ofRows l).2 i))).num
      have hA : ∏ i, F ((moveRow mv hi (ofRows l) m θ).2 i) = ((l.set (m % l.length) (mv l[m % l.length] θ)).map F).prod := by
        rw [← moveRow_rows mv h2 m hm θ, List.map_ofFn, List.prod_ofFn]
        rfl
      rw [hA, ofRows_prod] at *
      have hB : 0 < (l.map F).prod := lt_of_le_of_ne (List.prod_nonneg fun a ha => by
        obtain ⟨r, -, rfl⟩ := List.mem_map.1 ha
        exact hF r) (Ne.symm hne)
      have hold : 0 < F l[m % l.length] := by
        refine lt_of_le_of_ne (hF _) fun hc => hne ?_
        refine List.prod_eq_zero (List.mem_map.2 ⟨l[m % l.length], List.getElem_mem _, hc.symm⟩)
      rw [e5 hold, ← quotient_logOf hB (List.prod_nonneg fun a ha => by
        obtain ⟨r, -, rfl⟩ := List.mem_map.1 ha
        exact hF r)]
      congr 1
      rw [div_eq_div_iff hold.ne' hB.ne']
      have := set_prod F hm (mv l[m % l.length] θ)
      linarith

end

end BB.Lemmas
