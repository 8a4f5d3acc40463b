import Verif.Lemmas.Chain
import Verif.Spec.Schedule
import Verif.Model.StateChain
import Verif.Lemmas.Save
import Verif.Props.C01_C04_Iteration
import Mathlib.Data.Nat.Count
import Mathlib.Tactic.Ring

/-!
# C06, C07: which states are saved, and in which order
-/

namespace BB.Props

open BB BB.Spec BB.Lemmas

variable {S σ E : Type}

/-- A hook at the beginning of an iteration that does not interfere with the saving of samples (it may
change the temperature, the current state, the world, and may raise). -/
def BeginHook (m : Act (Chain S σ E) Unit) : Prop :=
  Act.Keeps m fun c c' => c'.saved = c.saved ∧ c'.total = c.total ∧ c'.saveNow = c.saveNow

/-- The same for a hook at the end of an iteration. -/
def EndHook (m : Act (Chain S σ E) Unit) : Prop :=
  Act.Keeps m fun c c' => c'.saved = c.saved ∧ c'.total = c.total

/-- C06 and C07 for any store: what is in the store after `n` iterations is what was there before,
followed by what `save` puts there for the states visited at the saving iterations, in the order of
the iterations.  `proj` reads a list out of the store, e.g. the list saved under a key; `vals` is what
one saved state contributes to it. -/
theorem C06_C07_saved {α : Type} (cfg : ChainCfg S σ) (proj : σ → List α) (vals : S → List α)
    (hsave : ∀ s st st', cfg.save s st = (.ok (), st') → proj st' = proj st ++ vals s)
    (b s : ℤ) (bi ei : Act (Chain S σ E) Unit) (hb : BeginHook bi) (he : EndHook ei) (n : ℕ)
    (c c' : Chain S σ E) (t t' : List Draw) (evs : List (Event S))
    (h : Chain.advance cfg b s bi ei n c t = (.ok evs, c', t')) :
    proj c'.saved = proj c.saved ++ (dueStates b s (c.total + 1) evs).flatMap vals := by
  classical
  induction n generalizing c t evs with
  | zero =>
    rw [advance_zero] at h
    simp only [Prod.mk.injEq, Except.ok.injEq] at h
    obtain ⟨rfl, rfl, rfl⟩ := h
    simp [dueStates]
  | succ n ih =>
    rw [advance_succ_ok] at h
    obtain ⟨ev, evs', c1, t1, rfl, h1, h2⟩ := h
    obtain ⟨c2, c3, c4, t2, t3, b1, b2, b3, b4⟩ := (iteration_ok cfg).1 h1
    have e1 := ((setFlag_ok).1 b1).2.2
    obtain ⟨p1, p2, p3⟩ := hb.ok b2
    have e3 := next_effect cfg b3
    obtain ⟨q1, q2⟩ := he.ok b4
    have htot : c1.total = c.total + 1 := by rw [q2, e3.total, p2, e1]
    have hsv : c3.saved = c.saved := by rw [p1, e1]
    rw [ih c1 t1 evs' h2, htot, q1]
    have hdue : c3.saveNow = true ↔ Due b s (c.total + 1) := by
      rw [p3, e1]
      simp only [decide_eq_true_eq]
      unfold Due
      push_cast
      exact Iff.rfl
    have hs := e3.saved
    simp only [hdue, ← e3.evTemp, hsv] at hs
    rw [dueStates]
    by_cases hd : Due b s (c.total + 1) ∧ ev.temp = 1
    · rw [if_pos hd] at hs ⊢
      rw [hsave _ _ _ hs]
      simp only [List.flatMap_append, List.flatMap_cons, List.flatMap_nil, List.append_nil,
        List.append_assoc]
      rfl
    · rw [if_neg hd] at hs ⊢
      rw [hs]; simp

/-- C06, temperature different from 1: nothing is saved. -/
theorem C06_other_temperature (cfg : ChainCfg S σ) (b s : ℤ) (bi ei : Act (Chain S σ E) Unit)
    (hb : BeginHook bi) (he : EndHook ei)
    (hbt : Act.Keeps bi fun c c' => c'.temp = c.temp)
    (het : Act.Keeps ei fun c c' => c'.temp = c.temp) (n : ℕ)
    (c c' : Chain S σ E) (t t' : List Draw) (evs : List (Event S)) (hT : c.temp ≠ 1)
    (h : Chain.advance cfg b s bi ei n c t = (.ok evs, c', t')) :
    c'.saved = c.saved := by
  induction n generalizing c t evs with
  | zero =>
    rw [advance_zero] at h
    simp only [Prod.mk.injEq, Except.ok.injEq] at h
    obtain ⟨rfl, rfl, rfl⟩ := h
    rfl
  | succ n ih =>
    rw [advance_succ_ok] at h
    obtain ⟨ev, evs', c1, t1, rfl, h1, h2⟩ := h
    obtain ⟨c2, c3, c4, t2, t3, b1, b2, b3, b4⟩ := (iteration_ok cfg).1 h1
    have e1 := ((setFlag_ok).1 b1).2.2
    have e3 := next_effect cfg b3
    have ht3 : c3.temp = c.temp := by rw [hbt.ok b2, e1]
    have ht1 : c1.temp = c.temp := by rw [het.ok b4, e3.temp, ht3]
    rw [ih c1 t1 evs' (by rw [ht1]; exact hT) h2, (he.ok b4).1]
    have hs := e3.saved
    rw [if_neg (by rw [ht3]; exact fun h => hT h.2)] at hs
    rw [hs, (hb.ok b2).1, e1]

theorem dueStates_length {S : Type} (b s : ℤ) (i : ℕ) (evs : List (Event S))
    (hT : ∀ ev ∈ evs, ev.temp = 1) [DecidablePred (Due b s)] :
    (dueStates b s i evs).length = ((List.range evs.length).filter (fun j => Due b s (i + j))).length := by
  classical
  induction evs generalizing i with
  | nil => rfl
  | cons ev evs ih =>
    unfold dueStates
    rw [List.length_append, ih (i + 1) (fun e he => hT e (by simp [he]))]
    rw [List.length_cons, List.range_succ_eq_map, List.filter_cons]
    have h1 := hT ev (by simp)
    simp only [h1, and_true, Nat.add_zero]
    rw [List.filter_map]
    have : (List.range evs.length).filter ((fun j => decide (Due b s (i + j))) ∘ Nat.succ) =
        (List.range evs.length).filter (fun j => decide (Due b s (i + 1 + j))) := by
      apply List.filter_congr
      intro j _
      simp only [Function.comp]
      congr 1
      rw [Nat.succ_eq_add_one, Nat.add_comm j 1, Nat.add_assoc]
    rw [this]
    by_cases hd : Due b s i
    · simp [hd]; omega
    · simp [hd]

/-- Number of saving iterations among the first `N`. -/
theorem due_count (b s N : ℕ) (hs : 1 ≤ s) [DecidablePred (Due (b : ℤ) (s : ℤ))] :
    ((List.range N).filter (fun j => Due (b : ℤ) (s : ℤ) (1 + j))).length = (N - b) / s := by
  induction N with
  | zero => simp
  | succ N ih =>
    rw [List.range_succ, List.filter_append, List.length_append, ih]
    by_cases hd : Due (b : ℤ) (s : ℤ) (1 + N)
    · simp only [List.filter_cons, hd, decide_true, if_true, List.filter_nil, List.length_singleton]
      obtain ⟨h1, h2⟩ := hd
      obtain ⟨k, hk⟩ : ∃ k, N + 1 - b = s * k := by
        have : s ∣ (N + 1 - b) := by
          have e : ((1 + N : ℕ) : ℤ) - (b : ℤ) = ((N + 1 - b : ℕ) : ℤ) := by omega
          rw [e] at h2
          exact_mod_cast h2
        exact this
      have hk0 : 0 < k := by
        rcases Nat.eq_zero_or_pos k with rfl | h
        · rw [Nat.mul_zero] at hk; omega
        · exact h
      have e : N - b = s * (k - 1) + (s - 1) := by
        obtain ⟨m, rfl⟩ : ∃ m, k = m + 1 := ⟨k - 1, by omega⟩
        rw [Nat.mul_succ] at hk
        simp only [Nat.add_sub_cancel]
        omega
      rw [hk, e, Nat.mul_add_div (by omega), Nat.mul_div_cancel_left _ (by omega),
        Nat.div_eq_of_lt (by omega)]
      omega
    · simp only [List.filter_cons, hd, decide_false, Bool.false_eq_true, if_false, List.filter_nil,
        List.length_nil, Nat.add_zero]
      by_cases hb : b ≤ N
      · have hnd : ¬ s ∣ (N - b + 1) := by
          intro hdv
          apply hd
          refine ⟨by omega, ?_⟩
          have e : ((1 + N : ℕ) : ℤ) - (b : ℤ) = ((N - b + 1 : ℕ) : ℤ) := by omega
          rw [e]
          exact_mod_cast hdv
        have : N + 1 - b = N - b + 1 := by omega
        rw [this, Nat.succ_div, if_neg hnd]; rfl
      · have h1 : N - b = 0 := by omega
        have h2 : N + 1 - b = 0 := by omega
        rw [h1, h2]

/-- C06, number of samples: a fresh chain at temperature 1, advanced `N` iterations with hooks that
keep the temperature, has saved `(N - burnin) div save_every` states (here for a store that is a list
of states, `_markov_chain.py` lines 101 and 131). -/
theorem C06_count (cfg : ChainCfg S (List S))
    (hcfg : ∀ s l, cfg.save s l = (.ok (), l ++ [s])) (b s : ℕ) (hs : 1 ≤ s)
    (bi ei : Act (Chain S (List S) E) Unit)
    (hb : BeginHook bi) (he : EndHook ei)
    (hbt : Act.Keeps bi fun c c' => c'.temp = c.temp)
    (het : Act.Keeps ei fun c c' => c'.temp = c.temp) (N : ℕ)
    (s0 : S) (w : E) (c' : Chain S (List S) E) (t t' : List Draw) (evs : List (Event S))
    (h : Chain.advance cfg b s bi ei N (Chain.init s0 [] 1 w) t = (.ok evs, c', t')) :
    c'.saved = dueStates b s 1 evs ∧ c'.saved.length = (N - b) / s := by
  classical
  have h1 := C06_C07_saved cfg (fun l => l) (fun s => [s])
    (fun s st st' h => by rw [hcfg] at h; simp at h; exact h.symm) b s bi ei hb he N _ c' t t' evs h
  have h2 : c'.saved = dueStates b s 1 evs := by
    have : (Chain.init s0 ([] : List S) 1 w).saved = [] := rfl
    simp only [this] at h1
    rw [h1]
    simp [Chain.init]
  refine ⟨h2, ?_⟩
  have key : ∀ (n : ℕ) (c c' : Chain S (List S) E) (t t' : List Draw) (evs : List (Event S)),
      c.temp = 1 → Chain.advance cfg b s bi ei n c t = (.ok evs, c', t') →
      (∀ ev ∈ evs, ev.temp = 1) ∧ evs.length = n := by
    intro n
    induction n with
    | zero =>
      intro c c' t t' evs _ h
      rw [advance_zero] at h
      simp only [Prod.mk.injEq, Except.ok.injEq] at h
      obtain ⟨rfl, rfl, rfl⟩ := h
      simp
    | succ n ih =>
      intro c c' t t' evs hT h
      rw [advance_succ_ok] at h
      obtain ⟨ev, evs', c1, t1, rfl, h1, h2⟩ := h
      obtain ⟨c2, c3, c4, t2, t3, b1, b2, b3, b4⟩ := (iteration_ok cfg).1 h1
      have e1 := ((setFlag_ok).1 b1).2.2
      have e3 := next_effect cfg b3
      have ht3 : c3.temp = 1 := by rw [hbt.ok b2, e1]; exact hT
      have ht1 : c1.temp = 1 := by rw [het.ok b4, e3.temp, ht3]
      obtain ⟨i1, i2⟩ := ih c1 c' t1 t' evs' ht1 h2
      refine ⟨?_, by simp [i2]⟩
      intro e he
      rcases List.mem_cons.1 he with rfl | he
      · rw [e3.evTemp, ht3]
      · exact i1 e he
  obtain ⟨k1, k2⟩ := key N _ c' t t' evs rfl h
  rw [h2, dueStates_length _ _ _ _ k1, k2]
  exact due_count b s N hs

/-- C07, permanence: whatever happens later (any number of iterations, normal end or exception), what
has been saved stays there, at the same position. -/
theorem C07_permanent {α : Type} (cfg : ChainCfg S σ) (proj : σ → List α)
    (hsave : ∀ s st, proj st <+: proj (cfg.save s st).2)
    (b s : ℤ) (bi ei : Act (Chain S σ E) Unit)
    (hb : Act.Keeps bi fun c c' => c'.saved = c.saved)
    (he : Act.Keeps ei fun c c' => c'.saved = c.saved) (n : ℕ) (c : Chain S σ E) (t : List Draw) :
    proj c.saved <+: proj (Chain.advance cfg b s bi ei n c t).2.1.saved := by
  classical
  have hfin : ∀ (c1 : Chain S σ E) t name new lp, proj c.saved <+: proj c1.saved →
      proj c.saved <+: proj (Chain.finish cfg name new lp c1 t).2.1.saved := by
    intro c1 t name new lp h
    cases t with
    | nil => exact h
    | cons d t =>
      rw [finish_run]
      split
      · exact h
      · split
        · exact h
        · rename_i p a hn
          have h4 : ∀ c2 : Chain S σ E, proj c.saved <+: proj c2.saved →
              proj c.saved <+: proj (Chain.saveIfDue cfg c2 t).2.1.saved := by
            intro c2 h
            unfold Chain.saveIfDue
            split
            · exact h.trans (hsave _ _)
            · exact h
          have h5 := h4 (afterStats c1 new (decide (lp.gtFin (Real.log d.u))) p a) h
          split
          · rename_i c2 t1 hs; rw [hs] at h5; exact h5
          · rename_i e c2 t1 hs; rw [hs] at h5; exact h5
  refine advance_inv cfg (P := fun c1 : Chain S σ E => proj c.saved <+: proj c1.saved)
    (fun c x h => h) ?_ ?_ (next_inv cfg ?_) n c t (List.prefix_refl _)
  · intro c1 t h; simp only [hb c1 t]; exact h
  · intro c1 t h; simp only [he c1 t]; exact h
  · intro c1 t h
    by_cases hch : ∃ name f t1, Chosen cfg t name f t1
    · obtain ⟨name, f, t1, hch⟩ := hch
      rw [attempt_chosen cfg hch]
      split
      · exact h
      · exact h
      · rename_i new lpr t2 hprop
        split
        · have := hfin c1 t2 name new (lpr.add (.fin 0)) h
          split
          · rename_i ev c2 t3 hs; rw [hs] at this; exact this
          · rename_i e c2 t3 hs; rw [hs] at this; exact this
        · split
          · exact h
          · exact h
          · exact h
          · rename_i r cur new1 hl
            have := hfin { c1 with cur := cur } t2 name new1 (lpr.add r) h
            split
            · rename_i ev c2 t3 hs; rw [hs] at this; exact this
            · rename_i e c2 t3 hs; rw [hs] at this; exact this
    · obtain ⟨e, t', he⟩ := attempt_not_chosen cfg (c := c1) (t := t)
        (fun name f t1 hh => hch ⟨name, f, t1, hh⟩)
      rw [he]; exact h

/-- C07 for the library's states: after any number of iterations, the list saved under each key is
what was there before, followed by the values that the states visited at the saving iterations have
under that key, in the order of the iterations. -/
theorem C07_saved_values (kind : LLKind State) (tf : List (Target × Fwd))
    (perturbs : List (String × (State → M (State × PyF)))) (weights : List ℝ)
    (spaces : Option (List (String × Bool))) (sd : Bool) (b s : ℤ)
    (bi ei : Act (Chain State Store E) Unit) (hb : BeginHook bi) (he : EndHook ei) (n : ℕ)
    (c c' : Chain State Store E) (t t' : List Draw) (evs : List (Event State))
    (h : Chain.advance (stateCfg kind tf perturbs weights spaces sd) b s bi ei n c t =
      (.ok evs, c', t')) (k : String) :
    savedUnder k c'.saved = savedUnder k c.saved ++
      (dueStates b s (c.total + 1) evs).flatMap (contribution spaces sd k) :=
  C06_C07_saved _ (savedUnder k) (contribution spaces sd k)
    (fun x st st' h => saveState_ok spaces sd x st st' h k) b s bi ei hb he n c c' t t' evs h

/-- C07 for the library's states, permanence under each key. -/
theorem C07_values_permanent (kind : LLKind State) (tf : List (Target × Fwd))
    (perturbs : List (String × (State → M (State × PyF)))) (weights : List ℝ)
    (spaces : Option (List (String × Bool))) (sd : Bool) (b s : ℤ)
    (bi ei : Act (Chain State Store E) Unit)
    (hb : Act.Keeps bi fun c c' => c'.saved = c.saved)
    (he : Act.Keeps ei fun c c' => c'.saved = c.saved) (n : ℕ) (c : Chain State Store E)
    (t : List Draw) (k : String) :
    savedUnder k c.saved <+: savedUnder k (Chain.advance
      (stateCfg kind tf perturbs weights spaces sd) b s bi ei n c t).2.1.saved :=
  C07_permanent _ (savedUnder k) (fun x st => saveState_prefix spaces sd x st k) b s bi ei hb he n c t

/-- C07, which values a saved state contributes: those of its expansion into named values, ... -/
theorem C07_contribution (spaces : Option (List (String × Bool))) (sd : Bool) (s : State)
    (h : Distinct s) (k : String) (hk : spaces = none ∨ substr "n_dimensions" k = false) :
    contribution spaces sd k s = (dget (expand s) k).toList ++ cachedUnder sd k s := by
  have hskip : skipKey spaces k = .ok false := by
    unfold skipKey
    rcases hk with rfl | hk
    · split <;> rfl
    · rw [hk]; rfl
  unfold contribution cachedUnder
  rw [hskip, vars_eq s h]
  cases dget (expand s) k <;> rfl

/-- ... except for the number of dimensions of a space of the parameterization, which is contributed
if and only if the space is trans-dimensional. -/
theorem C07_contribution_n_dimensions (d : List (String × Bool)) (sd : Bool) (s : State)
    (h : Distinct s) (name : String) (transd : Bool) (hd : dget d name = some transd) :
    contribution (some d) sd (name ++ ".n_dimensions") s =
      (if transd then (dget (expand s) (name ++ ".n_dimensions")).toList else []) ++
        cachedUnder sd (name ++ ".n_dimensions") s := by
  have hskip : skipKey (some d) (name ++ ".n_dimensions") = .ok (!transd) := by
    unfold skipKey
    rw [substr_n_dimensions, dropSuffix_n_dimensions]
    simp only [if_true, hd]
  unfold contribution cachedUnder
  rw [hskip, vars_eq s h]
  cases transd <;> cases dget (expand s) (name ++ ".n_dimensions") <;> rfl

/-- A key that contains `n_dimensions` without being the number of dimensions of a known space makes
the saving fail. -/
theorem C07_unknown_n_dimensions (d : List (String × Bool)) (sd : Bool) (s : State) (st : Store)
    (h : Distinct s) (name : String) (hd : dget d name = none)
    (hk : name ++ ".n_dimensions" ∈ dkeys (expand s)) :
    ∃ e st', saveState (some d) sd s st = (.error e, st') := by
  have hskip : skipKey (some d) (name ++ ".n_dimensions") = .error .keyError := by
    unfold skipKey
    rw [substr_n_dimensions, dropSuffix_n_dimensions]
    simp only [if_true, hd]
  have key : ∀ (l : List (String × SVal)) (st : Store), name ++ ".n_dimensions" ∈ dkeys l →
      ∃ e st', saveVars (some d) l st = (.error e, st') := by
    intro l
    induction l with
    | nil => intro st h; simp [dkeys] at h
    | cons kv l ih =>
      intro st hmem
      obtain ⟨k, v⟩ := kv
      rw [saveVars]
      rcases List.mem_cons.1 hmem with e | hmem
      · have e' : k = name ++ ".n_dimensions" := e.symm
        rw [e', hskip]
        exact ⟨_, _, rfl⟩
      · match hq : skipKey (some d) k with
        | .error e => exact ⟨_, _, rfl⟩
        | .ok true => exact ih _ hmem
        | .ok false => exact ih _ hmem
  obtain ⟨e, st', h1⟩ := key (expand s) st hk
  refine ⟨e, st', ?_⟩
  unfold saveState
  rw [vars_eq s h, h1]

/-! ### Non-trivial instances -/

section Examples

theorem skip_begin : BeginHook (Act.skip : Act (Chain S σ E) Unit) := fun _ _ => ⟨rfl, rfl, rfl⟩

theorem skip_end : EndHook (Act.skip : Act (Chain S σ E) Unit) := fun _ _ => ⟨rfl, rfl⟩

/-- A run of one iteration that completes and saves one state. -/
example : ∃ evs c' t', Chain.advance exCfg (0 : ℕ) (1 : ℕ) Act.skip Act.skip 1
    (Chain.init (0 : ℤ) [] 1 ()) [exDraw (1/2) (by norm_num), exDraw (1/2) (by norm_num)] =
      (.ok evs, c', t') ∧ c'.saved = dueStates 0 1 1 evs ∧ c'.saved.length = 1 := by
  obtain ⟨evs, c', t', h⟩ := exRun
  exact ⟨evs, c', t', h, C06_count exCfg (fun _ _ => rfl) 0 1 le_rfl _ _ skip_begin skip_end
    (fun _ _ => rfl) (fun _ _ => rfl) 1 0 () c' _ _ evs h⟩

/-- What a state with a space of two dimensions and a noise contributes. -/
noncomputable def exSaved : State :=
  { params := [("v", .ps (.mk 2 [("a", .arr (.vec [1, 2]))] none)), ("t", .noise ⟨3, none⟩)],
    temperature := 1, cache := [("t.dpred", .dpred [7, 8])], extra := [("e", 5)] }

example : contribution (some [("v", true)]) true "v.n_dimensions" exSaved = [.int 2] ∧
    contribution (some [("v", false)]) true "v.n_dimensions" exSaved = [] ∧
    contribution (some [("v", true)]) true "v.a" exSaved = [.arr (.vec [1, 2])] ∧
    contribution (some [("v", true)]) true "t.std" exSaved = [.num 3] ∧
    contribution (some [("v", true)]) true "e" exSaved = [.num 5] ∧
    contribution (some [("v", true)]) true "t.dpred" exSaved = [.dpred [7, 8]] ∧
    contribution (some [("v", true)]) false "t.dpred" exSaved = [] := by
  have h : exSaved.vars = [("v.n_dimensions", .int 2), ("v.a", .arr (.vec [1, 2])),
      ("t.std", .num 3), ("e", .num 5)] := by rfl
  unfold contribution
  rw [h]
  refine ⟨?_, ?_, ?_, ?_, ?_, ?_, ?_⟩ <;> rfl

/-- The state has no two values of the same name. -/
example : Distinct exSaved := by
  have h : (expand exSaved).map (·.1) = ["v.n_dimensions", "v.a", "t.std", "e"] := by rfl
  refine ⟨by rw [h]; decide, ?_⟩
  intro name ps hps
  simp only [exSaved, List.mem_cons, Prod.mk.injEq, TopVal.ps.injEq, List.not_mem_nil, or_false,
    reduceCtorEq, and_false] at hps
  obtain ⟨rfl, rfl⟩ := hps
  exact ⟨by decide, trivial⟩

end Examples

end BB.Props
