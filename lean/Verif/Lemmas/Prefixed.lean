import Verif.Model.WholeRun
import Verif.Lemmas.Chain

/-!
# Draws that are not used

What a computation does depends only on the draws that it uses: with more of them at the end of the tape it does the same, and they are
left.  The functions of the user (custom priors, initial values) are assumed to be of this kind.
-/

namespace BB.Lemmas

open BB

/-- Further draws are left. -/
def Prefixed {α : Type} (m : M α) : Prop :=
  ∀ t r, (m t).1 ≠ .error .tapeExhausted → m (t ++ r) = ((m t).1, (m t).2 ++ r)

theorem bind_raises {α β : Type} {m : M α} {f : α → M β} {t t' : List Draw} {e : PyErr} (h : m t = (.error e, t')) :
    (m >>= f) t = (.error e, t') := by
  rw [M.bind_run, h]

namespace Prefixed

theorem pure {α : Type} (a : α) : Prefixed (Pure.pure a : M α) := fun _ _ _ => rfl

theorem throw {α : Type} (e : PyErr) : Prefixed (M.throw e : M α) := fun _ _ _ => rfl

theorem lift {α : Type} (x : Except PyErr α) : Prefixed (M.lift x) := fun _ _ _ => rfl

theorem draw : Prefixed M.draw := by
  intro t r h
  cases t with
  | nil => exact absurd rfl h
  | cons d t => rfl

theorem bind {α β : Type} {m : M α} {f : α → M β} (hm : Prefixed m) (hf : ∀ a, Prefixed (f a)) : Prefixed (m >>= f) := by
  intro t r h
  have h1 := hm t r
  rcases hx : m t with ⟨e | a, t'⟩
  · rw [bind_raises hx] at h ⊢
    rw [hx] at h1
    exact bind_raises (h1 fun h3 => h (by cases h3; rfl))
  · have e1 : (m >>= f) t = f a t' := M.bind_of hx
    rw [hx] at h1
    rw [e1] at h ⊢
    rw [M.bind_of (h1 (by simp))]
    exact hf a t' r h

theorem ite {α : Type} {c : Prop} [Decidable c] {a b : M α} (ha : Prefixed a) (hb : Prefixed b) : Prefixed (if c then a else b) := by
  split <;> assumption

end Prefixed

/-- Splits a computation into its parts. -/
macro "prefixed" : tactic => `(tactic| repeat' (first
  | assumption
  | exact Prefixed.pure _
  | exact Prefixed.throw _
  | exact Prefixed.lift _
  | exact Prefixed.draw
  | refine Prefixed.bind ?_ (fun _ => ?_)
  | split))

theorem random_prefixed : Prefixed M.random := by
  unfold M.random
  prefixed

theorem uniform_prefixed (a b : ℝ) : Prefixed (M.uniform a b) := by
  unfold M.uniform
  prefixed

theorem normal_prefixed (a b : ℝ) : Prefixed (M.normalvariate a b) := by
  unfold M.normalvariate
  prefixed

theorem npNormal_prefixed (a b : ℝ) : Prefixed (M.npNormal a b) := by
  unfold M.npNormal
  exact Prefixed.ite (.throw _) (normal_prefixed _ _)

theorem npLaplace_prefixed (a b : ℝ) : Prefixed (M.npLaplace a b) := by
  unfold M.npLaplace
  prefixed

theorem randint_prefixed (a b : ℕ) : Prefixed (M.randint a b) := by
  unfold M.randint
  prefixed

theorem randIdx_prefixed (n : ℕ) : Prefixed (M.randIdx n) := by
  unfold M.randIdx
  prefixed

theorem choices_prefixed (n : ℕ) (ws : List ℝ) : Prefixed (choices n ws) := by
  unfold choices
  have := random_prefixed
  dsimp only
  prefixed

theorem forEach_prefixed {α β : Type} {f : α → M β} (h : ∀ a, Prefixed (f a)) : ∀ l, Prefixed (M.forEach f l)
  | [] => .pure _
  | x :: xs => by
    have h1 := h x
    have h2 := forEach_prefixed h xs
    rw [M.forEach]
    prefixed

theorem times_prefixed {α : Type} {f : M α} (h : Prefixed f) (n : ℕ) : Prefixed (M.times n f) := forEach_prefixed (fun _ => h) _

theorem untilFuel_prefixed {α : Type} {m : M (Option α)} (h : Prefixed m) : ∀ (k k' : ℕ), k ≤ k' → ∀ t r,
    (M.untilFuel m k t).1 ≠ .error .tapeExhausted → M.untilFuel m k' (t ++ r) = ((M.untilFuel m k t).1, (M.untilFuel m k t).2 ++ r)
  | 0, _, _, t, r, h0 => absurd rfl h0
  | k + 1, 0, hk, _, _, _ => absurd hk (by omega)
  | k + 1, k' + 1, hk, t, r, h0 => by
    have e : ∀ k t, M.untilFuel m (k + 1) t = (m >>= fun a => match a with
        | some x => pure x
        | none => M.untilFuel m k) t := fun k t => by
      rw [M.untilFuel]
      congr 1
    rw [e] at h0 ⊢
    rw [e]
    have h1 := h t r
    rcases hx : m t with ⟨e | a, t'⟩
    · rw [bind_raises hx] at h0 ⊢
      rw [hx] at h1
      exact bind_raises (h1 fun h3 => h0 (by cases h3; rfl))
    · rw [hx] at h1
      rw [M.bind_of hx] at h0 ⊢
      rw [M.bind_of (h1 (by simp))]
      cases a with
      | some x => rfl
      | none => exact untilFuel_prefixed h k k' (by omega) t' r h0

theorem until_prefixed {α : Type} {m : M (Option α)} (h : Prefixed m) : Prefixed (M.until m) := fun t r h0 =>
  untilFuel_prefixed h _ _ (by rw [List.length_append]; omega) t r h0

/-! ### priors -/

/-- The functions of the user. -/
def PriorPrefixed (p : Prior) : Prop :=
  (∀ f, p.init = some f → ∀ ps, Prefixed (f ps)) ∧ ∀ a b f, p.dist = .custom a b f → ∀ q, Prefixed (f q)

theorem prior_sample_prefixed {p : Prior} (h : PriorPrefixed p) (q : Pos) : Prefixed (p.sample q) := by
  unfold Prior.sample
  split
  · exact .bind (.lift _) fun _ => .bind (.lift _) fun _ => uniform_prefixed _ _
  · exact .bind (.lift _) fun _ => .bind (.lift _) fun _ => normal_prefixed _ _
  · exact .bind (.lift _) fun _ => .bind (.lift _) fun _ => npLaplace_prefixed _ _
  · next a b f e => exact h.2 a b f e q

theorem prior_init_prefixed {p : Prior} (h : PriorPrefixed p) (qs : List Pos) : Prefixed (p.initialize qs) := by
  unfold Prior.initialize
  split
  · next f e => exact h.1 f e qs
  · split
    · have h1 := fun l => forEach_prefixed (f := fun ab : ℝ × ℝ => M.uniform ab.1 ab.2) (fun _ => uniform_prefixed _ _) l
      prefixed
      all_goals first | exact h1 _ | exact h1
    · have h1 := fun l => forEach_prefixed (f := fun ab : ℝ × ℝ => M.npNormal ab.1 ab.2) (fun _ => npNormal_prefixed _ _) l
      prefixed
      all_goals first | exact h1 _ | exact h1
    · have h1 := fun l => forEach_prefixed (f := fun ab : ℝ × ℝ => M.npLaplace ab.1 ab.2) (fun _ => npLaplace_prefixed _ _) l
      prefixed
      all_goals first | exact h1 _ | exact h1
    · next a b f e =>
      have h1 := forEach_prefixed (h.2 a b f e) qs
      prefixed
      all_goals first | exact h1 _ | exact h1

theorem perturbValue_prefixed (p : Prior) (v : ℝ) (q : Pos) (b : Bool) : Prefixed (p.perturbValue v q b) := by
  unfold Prior.perturbValue
  have h1 := normal_prefixed
  prefixed
  all_goals first | exact h1 _ _

theorem fromNeighbour_prefixed (p : Prior) (v : ℝ) (q : Pos) : Prefixed (p.fromNeighbour v q) := by
  unfold Prior.fromNeighbour
  have := perturbValue_prefixed p v q true
  prefixed

/-! ### spaces -/

mutual
def SpacePrefixed : Space → Prop
  | .mk _ ps => ListPrefixed ps
def ListPrefixed : ParamList → Prop
  | .nil => True
  | .cons _ p rest => ParamPrefixed p ∧ ListPrefixed rest
def ParamPrefixed : Param → Prop
  | .prior p => PriorPrefixed p
  | .space s => SpacePrefixed s
end

theorem initDim_prefixed (i : Info) : Prefixed i.initDim := by
  unfold Info.initDim
  have := randint_prefixed
  prefixed
  all_goals first | exact this _ _

theorem sampleDim_prefixed (i : Info) : Prefixed i.sampleDim := by
  unfold Info.sampleDim
  have := randint_prefixed
  prefixed
  all_goals first | exact this _ _

theorem sampleBox_prefixed (v : Vor2) : Prefixed v.sampleBox := by
  unfold Vor2.sampleBox
  exact .bind (uniform_prefixed _ _) fun _ => .bind (uniform_prefixed _ _) fun _ => .pure _

theorem sampleSite2_prefixed (v : Vor2) : Prefixed v.sampleSite := by
  unfold Vor2.sampleSite
  have := sampleBox_prefixed v
  split
  · assumption
  · exact until_prefixed (.bind this fun _ => .pure _)

theorem sampleSites_prefixed (k : Kind) (n : ℕ) : Prefixed (k.sampleSites n) := by
  unfold Kind.sampleSites
  split
  · exact .pure _
  · exact .bind (times_prefixed (uniform_prefixed _ _) _) fun _ => .pure _
  · exact .bind (times_prefixed (sampleSite2_prefixed _) _) fun _ => .pure _

theorem garbage_prefixed (n : ℕ) : Prefixed (garbage n) := times_prefixed (.bind .draw fun _ => .pure _) _

mutual
theorem space_sample_prefixed : ∀ (s : Space), SpacePrefixed s → Prefixed s.sample
  | .mk info ps, h => by
    rw [SpacePrefixed] at h
    rw [Space.sample]
    refine .bind (sampleDim_prefixed _) fun n => .bind (sampleSites_prefixed _ _) fun o => ?_
    cases o with
    | none => exact .bind (samplePlain_prefixed ps h n) fun _ => .lift _
    | some sites => exact .bind (.lift _) fun _ => sampleAt_prefixed ps h _ _
theorem samplePlain_prefixed : ∀ (ps : ParamList), ListPrefixed ps → ∀ n, Prefixed (ps.samplePlain n)
  | .nil, _, _ => by rw [ParamList.samplePlain]; exact .pure _
  | .cons name p rest, h, n => by
    rw [ListPrefixed] at h
    rw [ParamList.samplePlain]
    exact .bind (sampleMany_prefixed p h.1 _ _) fun _ => .bind (samplePlain_prefixed rest h.2 n) fun _ => .pure _
theorem sampleAt_prefixed : ∀ (ps : ParamList), ListPrefixed ps → ∀ sites s, Prefixed (ps.sampleAt sites s)
  | .nil, _, _, _ => by rw [ParamList.sampleAt]; exact .pure _
  | .cons name p rest, h, sites, s => by
    rw [ListPrefixed] at h
    rw [ParamList.sampleAt]
    exact .bind (sampleMany_prefixed p h.1 _ _) fun _ => .bind (.lift _) fun _ => sampleAt_prefixed rest h.2 _ _
theorem sampleMany_prefixed : ∀ (p : Param), ParamPrefixed p → ∀ b sites, Prefixed (p.sampleMany b sites)
  | .prior p, h, _, _ => by
    rw [ParamPrefixed] at h
    rw [Param.sampleMany]
    exact .bind (forEach_prefixed (prior_sample_prefixed h) _) fun _ => .pure _
  | .space s, h, _, _ => by
    rw [ParamPrefixed] at h
    rw [Param.sampleMany]
    exact .bind (forEach_prefixed (fun _ => space_sample_prefixed s h) _) fun _ => .pure _
end

mutual
theorem space_init_prefixed : ∀ (s : Space), SpacePrefixed s → Prefixed s.initialize
  | .mk info ps, h => by
    rw [SpacePrefixed] at h
    rw [Space.initialize]
    refine .bind (initDim_prefixed _) fun n => .bind (sampleSites_prefixed _ _) fun o => ?_
    cases o with
    | none => exact .bind (initPlain_prefixed ps h n) fun _ => .lift _
    | some sites => exact .bind (initAt_prefixed ps h _ _) fun _ => .bind (.lift _) fun _ => .lift _
theorem initPlain_prefixed : ∀ (ps : ParamList), ListPrefixed ps → ∀ n, Prefixed (ps.initPlain n)
  | .nil, _, _ => by rw [ParamList.initPlain]; exact .pure _
  | .cons name p rest, h, n => by
    rw [ListPrefixed] at h
    rw [ParamList.initPlain]
    exact .bind (garbage_prefixed _) fun _ => .bind (param_init_prefixed p h.1 _) fun _ =>
      .bind (initPlain_prefixed rest h.2 n) fun _ => .pure _
theorem initAt_prefixed : ∀ (ps : ParamList), ListPrefixed ps → ∀ sites vals, Prefixed (ps.initAt sites vals)
  | .nil, _, _, _ => by rw [ParamList.initAt]; exact .pure _
  | .cons name p rest, h, sites, vals => by
    rw [ListPrefixed] at h
    rw [ParamList.initAt]
    exact .bind (param_init_prefixed p h.1 _) fun _ => initAt_prefixed rest h.2 _ _
theorem param_init_prefixed : ∀ (p : Param), ParamPrefixed p → ∀ sites, Prefixed (p.initialize sites)
  | .prior p, h, _ => by
    rw [ParamPrefixed] at h
    rw [Param.initialize]
    exact .bind (prior_init_prefixed h _) fun _ => .pure _
  | .space s, h, _ => by
    rw [ParamPrefixed] at h
    rw [Param.initialize]
    exact .bind (forEach_prefixed (fun _ => space_init_prefixed s h) _) fun _ => .pure _
end

theorem list_prefixed_mem : ∀ {ps : ParamList}, ListPrefixed ps → ∀ kv ∈ ps.toList, ParamPrefixed kv.2
  | .nil, _, kv, hkv => by cases hkv
  | .cons name p rest, h, kv, hkv => by
    rw [ListPrefixed] at h
    rw [ParamList.toList] at hkv
    rcases List.mem_cons.1 hkv with rfl | hkv
    · exact h.1
    · exact list_prefixed_mem h.2 kv hkv

theorem get_prefixed : ∀ {ps : ParamList}, ListPrefixed ps → ∀ {k : String} {p : Param}, ps.get? k = some p → ParamPrefixed p
  | .nil, _, _, _, e => by cases e
  | .cons name q rest, h, k, p, e => by
    rw [ListPrefixed] at h
    rw [ParamList.get?] at e
    split at e
    · cases e
      exact h.1
    · exact get_prefixed h.2 e

theorem sampleDisc_prefixed (s : Space) : Prefixed s.sampleDisc := by
  unfold Space.sampleDisc
  refine .bind (sampleDim_prefixed _) fun n => .bind (sampleSites_prefixed _ _) fun o => ?_
  cases o with
  | none => exact .throw _
  | some _ => exact .lift _

theorem fillInitial_prefixed : ∀ (l : List (String × Param)), (∀ kv ∈ l, ParamPrefixed kv.2) → ∀ s, Prefixed (fillInitial l s)
  | [], _, _ => .pure _
  | (name, p) :: rest, h, s => by
    unfold fillInitial
    refine .bind ?_ fun _ => .bind (.lift _) fun _ => fillInitial_prefixed rest (fun kv hkv => h kv (List.mem_cons_of_mem _ hkv)) _
    have hp := h _ (List.mem_cons_self ..)
    cases p with
    | prior p => exact .pure _
    | space sp =>
      change ParamPrefixed (.space sp) at hp
      rw [ParamPrefixed] at hp
      exact .ite (.bind (times_prefixed (sampleDisc_prefixed _) _) fun _ => .pure _)
        (.bind (times_prefixed (space_sample_prefixed _ hp) _) fun _ => .pure _)

theorem forSites_prefixed {σ : Type} {body : ℕ → Pos → σ → M σ} (h : ∀ i q s, Prefixed (body i q s)) :
    ∀ (l : List Pos) (i : ℕ) (s : σ), Prefixed (forSites body i l s)
  | [], _, _ => .pure _
  | q :: l, i, s => .bind (h i q s) fun _ => forSites_prefixed h l _ _

mutual
theorem sampleFromNeighbour_prefixed : ∀ (s : Space), SpacePrefixed s → ∀ old new, Prefixed (s.sampleFromNeighbour old new)
  | .mk info ps, h, old, new => by
    rw [SpacePrefixed] at h
    rw [Space.sampleFromNeighbour]
    exact .bind (fillInitial_prefixed _ (list_prefixed_mem h) _) fun _ => .bind (.lift _) fun _ =>
      forSites_prefixed (fun _ _ _ => .bind (.lift _) fun _ => fillPoint_prefixed ps h _ _ _ _ _) _ _ _
theorem fillPoint_prefixed : ∀ (ps : ParamList), ListPrefixed ps → ∀ old i inb pos acc, Prefixed (ps.fillPoint old i inb pos acc)
  | .nil, _, _, _, _, _, _ => by rw [ParamList.fillPoint]; exact .pure _
  | .cons name p rest, h, old, i, inb, pos, acc => by
    rw [ListPrefixed] at h
    rw [ParamList.fillPoint]
    exact .bind (param_fillPoint_prefixed p h.1 _ _ _ _ _ _) fun _ => fillPoint_prefixed rest h.2 _ _ _ _ _
theorem param_fillPoint_prefixed : ∀ (p : Param), ParamPrefixed p → ∀ name old i inb pos acc, Prefixed (p.fillPoint name old i inb pos acc)
  | .prior p, h, name, old, i, inb, pos, (new, lpr) => by
    rw [Param.fillPoint]
    exact .bind (.lift _) fun _ => .bind (fromNeighbour_prefixed _ _ _) fun _ => .bind (.lift _) fun _ => .pure _
  | .space s, h, name, old, i, inb, pos, (new, lpr) => by
    rw [ParamPrefixed] at h
    rw [Param.fillPoint]
    exact .ite (.bind (.lift _) fun _ => .bind (.lift _) fun _ => .bind (sampleFromNeighbour_prefixed s h _ _) fun _ => .pure _) (.pure _)
end

theorem newbornFromPrior_prefixed : ∀ (l : List (String × Param)), (∀ kv ∈ l, ParamPrefixed kv.2) → ∀ q, Prefixed (newbornFromPrior l q)
  | [], _, _ => .pure _
  | (name, p) :: rest, h, q => by
    unfold newbornFromPrior
    refine .bind ?_ fun _ => .bind (newbornFromPrior_prefixed rest (fun kv hkv => h kv (List.mem_cons_of_mem _ hkv)) q) fun _ => .pure _
    have hp := h _ (List.mem_cons_self ..)
    cases p with
    | prior p =>
      change ParamPrefixed (.prior p) at hp
      rw [ParamPrefixed] at hp
      exact .bind (prior_sample_prefixed hp _) fun _ => .pure _
    | space sp =>
      change ParamPrefixed (.space sp) at hp
      rw [ParamPrefixed] at hp
      exact .bind (space_sample_prefixed _ hp) fun _ => .pure _

theorem newbornFromNeighbour_prefixed (old : PSState) (inear : ℕ) (q : Pos) : ∀ (l : List (String × Param)),
    (∀ kv ∈ l, ParamPrefixed kv.2) → ∀ lpr, Prefixed (newbornFromNeighbour old inear q l lpr)
  | [], _, _ => .pure _
  | (name, p) :: rest, h, lpr => by
    unfold newbornFromNeighbour
    refine .bind ?_ fun _ => .bind (newbornFromNeighbour_prefixed old inear q rest
      (fun kv hkv => h kv (List.mem_cons_of_mem _ hkv)) _) fun _ => .pure _
    have hp := h _ (List.mem_cons_self ..)
    cases p with
    | prior p => exact .bind (.lift _) fun _ => .bind (fromNeighbour_prefixed _ _ _) fun _ => .pure _
    | space sp =>
      change ParamPrefixed (.space sp) at hp
      rw [ParamPrefixed] at hp
      exact .ite (.bind (.lift _) fun _ => .bind (sampleDisc_prefixed _) fun _ => .bind (sampleFromNeighbour_prefixed _ hp _ _) fun _ => .pure _)
        (.bind (space_sample_prefixed _ hp) fun _ => .throw _)

theorem params_prefixed {s : Space} (h : SpacePrefixed s) : ListPrefixed s.params := by
  cases s
  rwa [SpacePrefixed] at h

theorem newborn_prefixed {s : Space} (h : SpacePrefixed s) (q : Pos) (old : PSState) : Prefixed (s.newborn q old) := by
  unfold Space.newborn
  have hl := list_prefixed_mem (params_prefixed h)
  exact .ite (.bind (newbornFromPrior_prefixed _ hl _) fun _ => .pure _) (.bind (.lift _) fun _ => newbornFromNeighbour_prefixed _ _ _ _ hl _)

/-! ### perturbations -/

theorem birthValues_prefixed {ps : ParamList} (h : ListPrefixed ps) (i : ℕ) : ∀ l, Prefixed (birthValues ps i l)
  | [] => .pure _
  | (k, v) :: rest => by
    rw [birthValues]
    refine .bind ?_ fun _ => .bind (.lift _) fun _ => .bind (birthValues_prefixed h i rest) fun _ => .pure _
    split
    · exact .throw _
    · next p e =>
      have := get_prefixed h e
      rw [ParamPrefixed] at this
      exact .bind (prior_sample_prefixed this _) fun _ => .pure _
    · next s e =>
      have := get_prefixed h e
      rw [ParamPrefixed] at this
      exact .bind (space_sample_prefixed _ this) fun _ => .pure _

theorem birth_prefixed {sp : Space} (h : SpacePrefixed sp) (s : PSState) : Prefixed (sp.birth s) := by
  unfold Space.birth plainBirth vorBirth
  have h1 := sampleSite2_prefixed
  have h2 : ∀ v : Vor1, Prefixed v.sampleSite := fun v => uniform_prefixed _ _
  have h3 := newborn_prefixed h
  have h4 := birthValues_prefixed (params_prefixed h)
  have h5 := randint_prefixed 0 s.n
  prefixed
  all_goals first | exact h1 _ | exact h2 _ | exact h3 _ _ | exact h4 _ _

theorem death_prefixed (sp : Space) (s : PSState) : Prefixed (sp.death s) := by
  unfold Space.death plainDeath vorDeath
  have h5 := randIdx_prefixed s.n
  prefixed

theorem site_prefixed (sp : Space) (s : PSState) (i : ℕ) : Prefixed (sp.perturbSite s i) := by
  unfold Space.perturbSite vorMove
  have h1 : ∀ (v : Vor1) x, Prefixed (v.perturbSite x) := fun v x => until_prefixed (.bind (normal_prefixed _ _) fun _ => .pure _)
  have h2 : ∀ (v : Vor2) x, Prefixed (v.perturbSite x) := fun v x =>
    until_prefixed (.bind (npNormal_prefixed _ _) fun _ => .bind (npNormal_prefixed _ _) fun _ => .pure _)
  dsimp only
  prefixed
  all_goals first | exact h1 _ _ | exact h2 _ _

theorem perturbPriors_prefixed (s : PSState) (i : ℕ) : ∀ (l : List Prior) vals lpr, Prefixed (perturbPriors s i l vals lpr)
  | [], _, _ => .pure _
  | p :: rest, vals, lpr => by
    have h1 := perturbPriors_prefixed s i rest
    have h2 := perturbValue_prefixed p
    rw [perturbPriors]
    prefixed
    all_goals first | exact h1 _ _ | exact h2 _ _ _

def FuncPrefixed : PSFunc → Prop
  | .birth sp => SpacePrefixed sp
  | _ => True

theorem run_prefixed {f : PSFunc} (h : FuncPrefixed f) (s : PSState) : Prefixed (f.run s) := by
  cases f with
  | birth sp => exact birth_prefixed h s
  | death sp => exact death_prefixed sp s
  | site sp => exact .bind (randIdx_prefixed _) fun _ => site_prefixed _ _ _
  | values nm ps => exact .bind (randIdx_prefixed _) fun _ => .bind (perturbPriors_prefixed _ _ _ _ _) fun _ => .pure _

def PertPrefixed (g : PSPert) : Prop := ∀ f ∈ g.funcs, FuncPrefixed f

theorem perturbPS_prefixed {g : PSPert} (h : PertPrefixed g) (s : PSState) : Prefixed (g.perturbPS s) := by
  unfold PSPert.perturbPS
  refine .bind (choices_prefixed _ _) fun i => ?_
  split
  · exact .throw _
  · next f e => exact .bind (run_prefixed (h f (List.mem_of_getElem? e)) s) fun _ => .pure _

theorem visit_prefixed {g : PSPert} (h : PertPrefixed g) (n : ℕ) (k : String) (path : Path) (s : PSState) (l : PertLocals) :
    Prefixed (g.visit n k path s l) := by
  unfold PSPert.visit
  exact .ite (.bind (perturbPS_prefixed h s) fun _ => .pure _) (.pure _)

theorem visitAll_prefixed {g : PSPert} (h : PertPrefixed g) (n : ℕ) : ∀ qs l, Prefixed (g.visitAll n qs l)
  | [], _ => .pure _
  | _ :: qs, _ => .bind (visit_prefixed h _ _ _ _ _) fun _ => visitAll_prefixed h n qs _

theorem pertVals_prefixed {g : PSPert} (h : PertPrefixed g) (n : ℕ) (q : QItem) : ∀ vs l, Prefixed (g.pertVals n q vs l)
  | [], _ => .pure _
  | (k, .states xs) :: rest, l => by
    rw [PSPert.pertVals]
    exact .ite (.bind (visitAll_prefixed h _ _ _) fun _ => .ite (.throw _) (pertVals_prefixed h n q rest _))
      (.ite (.throw _) (.bind (pertVals_prefixed h n q rest _) fun _ => .pure _))
  | (_, .arr _) :: rest, l => by rw [PSPert.pertVals]; exact pertVals_prefixed h n q rest l
  | (_, .objs _) :: rest, l => by rw [PSPert.pertVals]; exact pertVals_prefixed h n q rest l

theorem pertQueue_prefixed {g : PSPert} (h : PertPrefixed g) (n : ℕ) : ∀ fuel qs l, Prefixed (g.pertQueue n fuel qs l)
  | 0, [], _ => .pure _
  | _ + 1, [], _ => .pure _
  | 0, _ :: _, _ => .throw _
  | fuel + 1, q :: queue, l => by
    rw [PSPert.pertQueue]
    exact .ite (.bind (pertVals_prefixed h _ _ _ _) fun _ => pertQueue_prefixed h n fuel _ _) (.pure _)

theorem pertTop_prefixed {g : PSPert} (h : PertPrefixed g) (n : ℕ) : ∀ vs l, Prefixed (g.pertTop n vs l)
  | [], _ => .pure _
  | (k, .ps s) :: rest, l => by
    rw [PSPert.pertTop]
    exact .ite (.bind (visit_prefixed h _ _ _ _ _) fun _ => pertTop_prefixed h n rest _) (.bind (pertTop_prefixed h n rest _) fun _ => .pure _)
  | (_, .noise _) :: rest, l => by rw [PSPert.pertTop]; exact pertTop_prefixed h n rest l

theorem perturb_prefixed {g : PSPert} (h : PertPrefixed g) (s : State) : Prefixed (g.perturb s) := by
  unfold PSPert.perturb
  exact .bind (.lift _) fun _ => .bind (randIdx_prefixed _) fun _ => .bind (pertTop_prefixed h _ _ _) fun _ =>
    .bind (pertQueue_prefixed h _ _ _ _) fun _ => .pure _

theorem redraw_prefixed (a b c d : ℝ) : Prefixed (redraw a b c d) := until_prefixed (.bind (normal_prefixed _ _) fun _ => .pure _)

theorem perturbNoise_prefixed (t : Target) (d : Noise) : Prefixed (t.perturbNoise d) := by
  unfold Target.perturbNoise
  refine .bind (redraw_prefixed _ _ _ _) fun _ => .ite ?_ (.pure _)
  split
  · exact .throw _
  · exact .bind (redraw_prefixed _ _ _ _) fun _ => .pure _

theorem perturbNoises_prefixed (p : Params) : ∀ ts acc, Prefixed (perturbNoises p ts acc)
  | [], _ => .pure _
  | t :: ts, _ => .bind (.lift _) fun _ => .bind (perturbNoise_prefixed _ _) fun _ => perturbNoises_prefixed p ts _

theorem noisePerturb_prefixed (ts : List Target) (s : State) : Prefixed (noisePerturb ts s) :=
  .bind (perturbNoises_prefixed _ _ _) fun _ => .pure _

/-! ### inversions -/

theorem target_prefixed (t : Target) (s : State) : Prefixed (t.initialize s) := by
  unfold Target.initialize
  exact .ite (.bind (uniform_prefixed _ _) fun _ => .ite (.bind (uniform_prefixed _ _) fun _ => .pure _) (.pure _)) (.pure _)

theorem initTargets_prefixed : ∀ ts s, Prefixed (initTargets ts s)
  | [], _ => .pure _
  | _ :: ts, _ => .bind (target_prefixed _ _) fun _ => initTargets_prefixed ts _

theorem initValues_prefixed : ∀ (sps : Spaces), (∀ kv ∈ sps, SpacePrefixed kv.2) → Prefixed sps.initValues
  | [], _ => .pure _
  | (_, sp) :: rest, h => .bind (space_init_prefixed sp (h _ (List.mem_cons_self ..))) fun _ =>
    .bind (initValues_prefixed rest fun kv hkv => h kv (List.mem_cons_of_mem _ hkv)) fun _ => .pure _

theorem start_prefixed {p : Problem} (h : ∀ kv ∈ p.spaces, SpacePrefixed kv.2) : Prefixed p.start :=
  .bind (.bind (initValues_prefixed _ h) fun _ => .pure _) fun _ => initTargets_prefixed _ _

theorem newChain_prefixed {E : Type} {p : Problem} (h : ∀ kv ∈ p.spaces, SpacePrefixed kv.2) (w : E) : Prefixed (p.newChain w) :=
  .bind (start_prefixed h) fun _ => .pure _

mutual
theorem space_perts_prefixed : ∀ (s : Space), SpacePrefixed s → ∀ g ∈ s.perts, PertPrefixed g.1
  | .mk info ps, h, g, hg => by
    have hs := h
    rw [SpacePrefixed] at h
    rw [Space.perts] at hg
    rcases List.mem_append.1 hg with hg | hg
    · exact list_perts_prefixed ps h g hg
    · rw [List.mem_singleton] at hg
      subst hg
      intro f hf
      obtain ⟨x, hx, rfl⟩ := List.mem_map.1 hf
      unfold Space.ownFuncs at hx
      rcases List.mem_append.1 hx with hx | hx
      · rcases List.mem_append.1 hx with hx | hx
        · split at hx
          · rcases List.mem_cons.1 hx with rfl | hx
            · exact hs
            · rw [List.mem_singleton] at hx
              subst hx
              trivial
          · cases hx
        · split at hx
          · cases hx
          · rw [List.mem_singleton] at hx
            subst hx
            trivial
      · split at hx
        · rw [List.mem_singleton] at hx
          subst hx
          trivial
        · cases hx
theorem list_perts_prefixed : ∀ (ps : ParamList), ListPrefixed ps → ∀ g ∈ ps.perts, PertPrefixed g.1
  | .nil, _, _, hg => by rw [ParamList.perts] at hg; cases hg
  | .cons _ p rest, h, g, hg => by
    rw [ListPrefixed] at h
    rw [ParamList.perts] at hg
    rcases List.mem_append.1 hg with hg | hg
    · exact param_perts_prefixed p h.1 g hg
    · exact list_perts_prefixed rest h.2 g hg
theorem param_perts_prefixed : ∀ (p : Param), ParamPrefixed p → ∀ g ∈ p.perts, PertPrefixed g.1
  | .prior _, _, _, hg => by rw [Param.perts] at hg; cases hg
  | .space s, h, g, hg => by
    rw [ParamPrefixed] at h
    rw [Param.perts] at hg
    exact space_perts_prefixed s h g hg
end

theorem perturbs_prefixed {p : Problem} (h : ∀ kv ∈ p.spaces, SpacePrefixed kv.2) : ∀ f ∈ p.perturbs, ∀ s, Prefixed (f.2 s) := by
  intro f hf s
  unfold Problem.perturbs at hf
  rcases List.mem_append.1 hf with hf | hf
  · obtain ⟨g, hg, rfl⟩ := List.mem_map.1 hf
    obtain ⟨kv, hkv, hg⟩ := List.mem_flatMap.1 hg
    exact perturb_prefixed (space_perts_prefixed _ (h kv hkv) g hg) s
  · unfold Problem.noisePerturbs at hf
    split at hf
    · cases hf
    · rw [List.mem_singleton] at hf
      subst hf
      exact noisePerturb_prefixed _ _

/-! ### chains -/

/-- Further draws are left, for actions. -/
def ActPrefixed {C α : Type} (a : Act C α) : Prop :=
  ∀ c t r, (a c t).1 ≠ .error .tapeExhausted → a c (t ++ r) = ((a c t).1, (a c t).2.1, (a c t).2.2 ++ r)

namespace ActPrefixed

variable {C α β : Type}

theorem pure (a : α) : ActPrefixed (Pure.pure a : Act C α) := fun _ _ _ _ => rfl

theorem throw (e : PyErr) : ActPrefixed (Act.throw e : Act C α) := fun _ _ _ _ => rfl

theorem ofM {m : M α} (h : Prefixed m) : ActPrefixed (Act.ofM m : Act C α) := by
  intro c t r h0
  unfold Act.ofM at h0 ⊢
  have h1 := h t r h0
  rw [h1]

theorem bind {a : Act C α} {f : α → Act C β} (ha : ActPrefixed a) (hf : ∀ x, ActPrefixed (f x)) : ActPrefixed (a >>= f) := by
  intro c t r h
  have h1 := ha c t r
  rw [Act.bind_run] at h ⊢
  rw [Act.bind_run]
  rcases hx : a c t with ⟨e | x, c', t'⟩
  · rw [hx] at h h1
    rw [h1 fun h3 => h (by cases h3; rfl)]
  · rw [hx] at h h1
    rw [h1 (by simp)]
    exact hf x c' t' r h

theorem ite {c : Prop} [Decidable c] {a b : Act C α} (ha : ActPrefixed a) (hb : ActPrefixed b) : ActPrefixed (if c then a else b) := by
  split <;> assumption

end ActPrefixed

variable {S σ E : Type} {cfg : ChainCfg S σ}

theorem finish_prefixed (name : String) (new : S) (lp : PyF) : ActPrefixed (Chain.finish (E := E) cfg name new lp) := by
  unfold Chain.finish
  refine .bind (.ofM random_prefixed) fun u => .ite (.throw _) (.bind (fun _ _ _ _ => rfl) fun _ => .bind (fun _ _ _ _ => rfl) fun _ =>
    .bind ?_ fun _ => .bind ?_ fun _ => .pure _)
  · intro c t r _
    unfold Chain.saveStatistics
    split <;> rfl
  · intro c t r _
    unfold Chain.saveIfDue
    split <;> rfl

theorem ratio_prefixed (new : S) : ActPrefixed (Chain.ratio (E := E) cfg new) := by
  intro c t r _
  unfold Chain.ratio
  split <;> rfl

theorem attempt_prefixed (h : ∀ f ∈ cfg.perturbs, ∀ s, Prefixed (f.2 s)) : ActPrefixed (Chain.attempt (E := E) cfg) := by
  unfold Chain.attempt
  refine .bind (.ofM (choices_prefixed _ _)) fun i => ?_
  split
  · exact .throw _
  · next name f e =>
    intro c t r h0
    have h1 := h _ (List.mem_of_getElem? e) c.cur t r
    dsimp only at h1 h0 ⊢
    have key : ∀ (new : S) (lpr : PyF), ActPrefixed ((if lpr.isInf then do
        let ev ← Chain.finish cfg name new (lpr.add (.fin 0))
        return some ev
      else do
        match ← Chain.ratio cfg new with
        | none => return none
        | some (llr, new) =>
          let ev ← Chain.finish cfg name new (lpr.add llr)
          return some ev : Act (Chain S σ E) (Option (Event S)))) := by
      intro new lpr
      refine .ite (.bind (finish_prefixed _ _ _) fun _ => .pure _) (.bind (ratio_prefixed _) fun o => ?_)
      cases o with
      | none => exact .pure _
      | some x => exact .bind (finish_prefixed _ _ _) fun _ => .pure _
    rcases hx : f c.cur t with ⟨e | ⟨new, lpr⟩, t'⟩
    · rw [hx] at h1 h0
      have h2 : e ≠ .tapeExhausted := by
        rintro rfl
        exact h0 rfl
      rw [h1 (by simpa using h2)]
      cases e <;> rfl
    · rw [hx] at h1 h0
      rw [h1 (by simp)]
      exact key new lpr c t' r h0

theorem attempts_prefixed (h : ∀ f ∈ cfg.perturbs, ∀ s, Prefixed (f.2 s)) : ∀ k, ActPrefixed (Chain.attempts (E := E) cfg k)
  | 0 => .throw _
  | k + 1 => by
    rw [Chain.attempts]
    refine .bind (attempt_prefixed h) fun o => ?_
    cases o with
    | some ev => exact .pure _
    | none => exact attempts_prefixed h k

theorem iteration_prefixed (h : ∀ f ∈ cfg.perturbs, ∀ s, Prefixed (f.2 s)) (b s : ℤ) {beginIt endIt : Act (Chain S σ E) Unit}
    (h1 : ActPrefixed beginIt) (h2 : ActPrefixed endIt) : ActPrefixed (Chain.iteration cfg b s beginIt endIt) := by
  unfold Chain.iteration
  refine .bind ?_ fun _ => .bind h1 fun _ => .bind (attempts_prefixed h 500) fun _ => .bind h2 fun _ => .pure _
  intro c t r _
  unfold Chain.setFlag
  dsimp only
  split
  · rfl
  · split <;> rfl

theorem advance_prefixed (h : ∀ f ∈ cfg.perturbs, ∀ s, Prefixed (f.2 s)) (b s : ℤ) {beginIt endIt : Act (Chain S σ E) Unit}
    (h1 : ActPrefixed beginIt) (h2 : ActPrefixed endIt) : ∀ n, ActPrefixed (Chain.advance cfg b s beginIt endIt n)
  | 0 => .pure _
  | n + 1 => .bind (iteration_prefixed h b s h1 h2) fun _ => .bind (advance_prefixed h b s h1 h2 n) fun _ => .pure _

end BB.Lemmas
