import Verif.Lemmas.Rand
import Verif.Lemmas.ProgressInit

/-!
# Draws are used one after the other
-/

namespace BB

/-- What is left of the draws is a final part of those supplied. -/
def Consumes {α : Type} (m : M α) : Prop := ∀ t, (m t).2 <:+ t

namespace Consumes

variable {α β : Type}

theorem pure' (a : α) : Consumes (pure a : M α) := fun _ => List.suffix_refl _

theorem lift' (x : Except PyErr α) : Consumes (M.lift x) := fun _ => List.suffix_refl _

theorem throw' (e : PyErr) : Consumes (M.throw e : M α) := fun _ => List.suffix_refl _

theorem bind' {m : M α} {f : α → M β} (hm : Consumes m) (hf : ∀ a, Consumes (f a)) : Consumes (m >>= f) := by
  intro t
  rw [M.bind_run]
  have h := hm t
  match hr : m t with
  | (.ok a, t1) => rw [hr] at h; exact (hf a t1).trans h
  | (.error e, t1) => rw [hr] at h; exact h

theorem draw' : Consumes M.draw := by
  intro t
  cases t with
  | nil => exact List.suffix_refl _
  | cons d t => exact List.suffix_cons _ _

/-- Reduces a goal about a program to goals about its parts. -/
macro "consume" : tactic => `(tactic| repeat' (first
  | with_reducible assumption
  | with_reducible apply Consumes.pure'
  | with_reducible apply Consumes.lift'
  | with_reducible apply Consumes.throw'
  | with_reducible apply Consumes.draw'
  | with_reducible refine Consumes.bind' ?_ fun _ => ?_
  | split))

theorem random' : Consumes M.random := by unfold M.random; consume

theorem uniform' (a b : ℝ) : Consumes (M.uniform a b) := by unfold M.uniform; consume

theorem normal' (a b : ℝ) : Consumes (M.normalvariate a b) := by unfold M.normalvariate; consume

theorem npNormal' (a b : ℝ) : Consumes (M.npNormal a b) := by
  have := normal' a b
  unfold M.npNormal; consume

theorem npLaplace' (a b : ℝ) : Consumes (M.npLaplace a b) := by
  unfold M.npLaplace; consume

theorem randint' (a b : ℕ) : Consumes (M.randint a b) := by unfold M.randint; consume

theorem randIdx' (n : ℕ) : Consumes (M.randIdx n) := by unfold M.randIdx; consume

theorem choices' (n : ℕ) (ws : List ℝ) : Consumes (choices n ws) := by
  have := random'
  unfold choices; simp only; consume

theorem forEach' {f : α → M β} (h : ∀ x, Consumes (f x)) : ∀ xs : List α, Consumes (M.forEach f xs)
  | [] => pure' _
  | x :: xs => (h x).bind' fun _ => (forEach' h xs).bind' fun _ => pure' _

theorem times' {f : M α} (h : Consumes f) (n : ℕ) : Consumes (M.times n f) := forEach' (fun _ => h) _

theorem untilFuel' {m : M (Option α)} (h : Consumes m) : ∀ n, Consumes (M.untilFuel m n)
  | 0 => throw' _
  | n + 1 => h.bind' fun o => by
    cases o with
    | none => exact untilFuel' h n
    | some x => exact pure' x

theorem until' {m : M (Option α)} (h : Consumes m) : Consumes (M.until m) :=
  fun t => untilFuel' h (t.length + 1) t

theorem forSites' {σ : Type} {body : ℕ → Pos → σ → M σ} (h : ∀ i p s, Consumes (body i p s)) :
    ∀ (ps : List Pos) (i : ℕ) (s : σ), Consumes (forSites body i ps s)
  | [], _, s => pure' s
  | p :: ps, i, s => (h i p s).bind' fun s => forSites' h ps (i + 1) s

end Consumes

namespace Lemmas

open BB BB.Spec

theorem sampleDim_consumes (i : Info) : Consumes i.sampleDim := by
  unfold Info.sampleDim
  have := fun a b => Consumes.randint' a b
  split
  · exact Consumes.pure' _
  · exact this _ _

theorem sampleBox_consumes (v : Vor2) : Consumes v.sampleBox :=
  (Consumes.uniform' _ _).bind' fun _ => (Consumes.uniform' _ _).bind' fun _ => Consumes.pure' _

theorem sampleSite2_consumes (v : Vor2) : Consumes v.sampleSite := by
  unfold Vor2.sampleSite
  split
  · exact sampleBox_consumes v
  · exact Consumes.until' ((sampleBox_consumes v).bind' fun _ => Consumes.pure' _)

theorem sampleSites_consumes (k : Kind) (n : ℕ) : Consumes (k.sampleSites n) := by
  unfold Kind.sampleSites
  split
  · exact Consumes.pure' _
  · exact (Consumes.times' (Consumes.uniform' _ _) n).bind' fun _ => Consumes.pure' _
  · exact (Consumes.times' (sampleSite2_consumes _) n).bind' fun _ => Consumes.pure' _

/-- The values of the parameter are sampled by the library. -/
def Known (q : Prior) : Prop := ∀ pos, Consumes (q.sample pos)

theorem known_of {k : Kind} {q : Prior} (h : PriorSafe k q) : Known q := by
  intro pos
  have h1 := h.dist
  unfold Prior.sample
  split
  · exact (Consumes.lift' _).bind' fun _ => (Consumes.lift' _).bind' fun _ => Consumes.uniform' _ _
  · exact (Consumes.lift' _).bind' fun _ => (Consumes.lift' _).bind' fun _ => Consumes.normal' _ _
  · exact (Consumes.lift' _).bind' fun _ => (Consumes.lift' _).bind' fun _ => Consumes.npLaplace' _ _
  · rename_i he; rw [he] at h1; exact h1.elim

theorem perturbValue_consumes (q : Prior) (v : ℝ) (pos : Pos) (b : Bool) : Consumes (q.perturbValue v pos b) := by
  unfold Prior.perturbValue
  have := fun a b => Consumes.normal' a b
  split <;> consume <;> exact this _ _

theorem fromNeighbour_consumes (q : Prior) (v : ℝ) (pos : Pos) : Consumes (q.fromNeighbour v pos) := by
  unfold Prior.fromNeighbour
  have := perturbValue_consumes q v pos true
  consume

mutual
def KnownS : Space → Prop
  | .mk _ ps => KnownL ps
def KnownL : ParamList → Prop
  | .nil => True
  | .cons _ p rest => KnownP p ∧ KnownL rest
def KnownP : Param → Prop
  | .prior q => Known q
  | .space s => KnownS s
end

mutual
theorem knownS_of : ∀ sp, Safe sp → KnownS sp
  | .mk info ps, h => by
    rw [KnownS]
    exact knownL_of ps info.kind h.params
theorem knownL_of : ∀ ps k, SafeL k ps → KnownL ps
  | .nil, _, _ => by rw [KnownL]; trivial
  | .cons name p rest, k, h => by
    rw [KnownL]
    refine ⟨knownP_of p k ?_, knownL_of rest k h.tail⟩
    cases p with
    | prior q => exact h.priors name q (List.mem_cons_self ..)
    | space sp => exact h.spaces name sp (List.mem_cons_self ..)
theorem knownP_of : ∀ p k, SafeP k p → KnownP p
  | .prior q, k, h => by
    rw [KnownP]
    exact known_of h
  | .space s, k, h => by
    rw [KnownP]
    exact knownS_of s h
end

theorem KnownL.mem {ps : ParamList} : KnownL ps → ∀ {k : String} {p : Param}, (k, p) ∈ ps.toList → KnownP p := by
  match ps with
  | .nil => intro _ k p hk; simp [ParamList.toList] at hk
  | .cons name p0 rest =>
    intro h k p hk
    rw [KnownL] at h
    rw [ParamList.toList] at hk
    rcases List.mem_cons.1 hk with e | hk
    · injection e with e1 e2; rw [e2]; exact h.1
    · exact KnownL.mem h.2 hk

mutual
theorem sample_consumes : ∀ sp, KnownS sp → Consumes sp.sample
  | .mk info ps, h => by
    rw [KnownS] at h
    rw [Space.sample]
    refine (sampleDim_consumes _).bind' fun n => (sampleSites_consumes _ _).bind' fun o => ?_
    cases o with
    | none => exact (samplePlain_consumes ps h n).bind' fun _ => Consumes.lift' _
    | some sites => exact (Consumes.lift' _).bind' fun s => sampleAt_consumes ps h _ s
theorem samplePlain_consumes : ∀ ps, KnownL ps → ∀ n, Consumes (ps.samplePlain n)
  | .nil, _, n => by rw [ParamList.samplePlain]; exact Consumes.pure' _
  | .cons name p rest, h, n => by
    rw [KnownL] at h
    rw [ParamList.samplePlain]
    exact (sampleMany_consumes p h.1 _ _).bind' fun _ => (samplePlain_consumes rest h.2 n).bind' fun _ => Consumes.pure' _
theorem sampleAt_consumes : ∀ ps, KnownL ps → ∀ sites s, Consumes (ps.sampleAt sites s)
  | .nil, _, _, _ => by rw [ParamList.sampleAt]; exact Consumes.pure' _
  | .cons name p rest, h, sites, s => by
    rw [KnownL] at h
    rw [ParamList.sampleAt]
    exact (sampleMany_consumes p h.1 _ _).bind' fun _ => (Consumes.lift' _).bind' fun _ =>
      sampleAt_consumes rest h.2 _ _
theorem sampleMany_consumes : ∀ p, KnownP p → ∀ b sites, Consumes (p.sampleMany b sites)
  | .prior q, h, b, sites => by
    rw [KnownP] at h
    rw [Param.sampleMany]
    exact (Consumes.forEach' h _).bind' fun _ => Consumes.pure' _
  | .space s, h, b, sites => by
    rw [KnownP] at h
    rw [Param.sampleMany]
    exact (Consumes.forEach' (fun _ => sample_consumes s h) _).bind' fun _ => Consumes.pure' _
end

theorem sampleDisc_consumes (sp : Space) : Consumes sp.sampleDisc := by
  unfold Space.sampleDisc
  refine (sampleDim_consumes _).bind' fun n => (sampleSites_consumes _ _).bind' fun o => ?_
  cases o with
  | none => exact Consumes.throw' _
  | some sites => exact Consumes.lift' _

theorem fillInitial_consumes : ∀ (l : List (String × Param)), (∀ k p, (k, p) ∈ l → KnownP p) → ∀ s, Consumes (fillInitial l s)
  | [], _, _ => Consumes.pure' _
  | (name, p) :: rest, h, s => by
    rw [fillInitial.eq_def]
    simp only
    refine Consumes.bind' ?_ fun v => (Consumes.lift' _).bind' fun s =>
      fillInitial_consumes rest (fun k p hk => h k p (List.mem_cons_of_mem _ hk)) s
    have h0 := h name p (List.mem_cons_self ..)
    cases p with
    | prior q => exact Consumes.pure' _
    | space sp =>
      rw [KnownP] at h0
      simp only
      split
      · exact (Consumes.times' (sampleDisc_consumes sp) _).bind' fun _ => Consumes.pure' _
      · exact (Consumes.times' (sample_consumes sp h0) _).bind' fun _ => Consumes.pure' _

mutual
theorem sampleFrom_consumes : ∀ sp, KnownS sp → ∀ old new, Consumes (sp.sampleFromNeighbour old new)
  | .mk info ps, h, old, new => by
    rw [KnownS] at h
    rw [Space.sampleFromNeighbour]
    refine (fillInitial_consumes _ (fun k p hk => h.mem hk) _).bind' fun s => (Consumes.lift' _).bind' fun sites => ?_
    exact Consumes.forSites' (fun i pos acc => (Consumes.lift' _).bind' fun inb => fillPoint_consumes ps h _ _ _ _ _) _ _ _
theorem fillPoint_consumes : ∀ ps, KnownL ps → ∀ old i inb pos acc, Consumes (ps.fillPoint old i inb pos acc)
  | .nil, _, _, _, _, _, _ => by rw [ParamList.fillPoint]; exact Consumes.pure' _
  | .cons name p rest, h, old, i, inb, pos, acc => by
    rw [KnownL] at h
    rw [ParamList.fillPoint]
    exact (fillParam_consumes p h.1 _ _ _ _ _ _).bind' fun acc => fillPoint_consumes rest h.2 _ _ _ _ _
theorem fillParam_consumes : ∀ p, KnownP p → ∀ name old i inb pos acc, Consumes (p.fillPoint name old i inb pos acc)
  | .prior q, h, name, old, i, inb, pos, (new, lpr) => by
    rw [Param.fillPoint]
    exact (Consumes.lift' _).bind' fun _ => (fromNeighbour_consumes _ _ _).bind' fun _ =>
      (Consumes.lift' _).bind' fun _ => Consumes.pure' _
  | .space s, h, name, old, i, inb, pos, (new, lpr) => by
    rw [KnownP] at h
    rw [Param.fillPoint]
    split
    · exact (Consumes.lift' _).bind' fun _ => (Consumes.lift' _).bind' fun _ =>
        (sampleFrom_consumes s h _ _).bind' fun _ => Consumes.pure' _
    · exact Consumes.pure' _
end

theorem newbornFromPrior_consumes : ∀ (l : List (String × Param)), (∀ k p, (k, p) ∈ l → KnownP p) → ∀ pos,
    Consumes (newbornFromPrior l pos)
  | [], _, _ => Consumes.pure' _
  | (name, p) :: rest, h, pos => by
    rw [newbornFromPrior.eq_def]
    simp only
    refine Consumes.bind' ?_ fun v =>
      (newbornFromPrior_consumes rest (fun k p hk => h k p (List.mem_cons_of_mem _ hk)) pos).bind' fun _ => Consumes.pure' _
    have h0 := h name p (List.mem_cons_self ..)
    cases p with
    | prior q => rw [KnownP] at h0; exact (h0 pos).bind' fun _ => Consumes.pure' _
    | space sp => rw [KnownP] at h0; exact (sample_consumes sp h0).bind' fun _ => Consumes.pure' _

theorem newbornFromNeighbour_consumes (old : PSState) (inear : ℕ) (pos : Pos) : ∀ (l : List (String × Param)),
    (∀ k p, (k, p) ∈ l → KnownP p) → ∀ acc, Consumes (newbornFromNeighbour old inear pos l acc)
  | [], _, _ => Consumes.pure' _
  | (name, p) :: rest, h, acc => by
    rw [newbornFromNeighbour.eq_def]
    simp only
    refine Consumes.bind' ?_ fun v =>
      (newbornFromNeighbour_consumes old inear pos rest (fun k p hk => h k p (List.mem_cons_of_mem _ hk)) _).bind'
        fun _ => Consumes.pure' _
    have h0 := h name p (List.mem_cons_self ..)
    cases p with
    | prior q =>
      exact (Consumes.lift' _).bind' fun _ => (fromNeighbour_consumes _ _ _).bind' fun _ => Consumes.pure' _
    | space sp =>
      rw [KnownP] at h0
      simp only
      split
      · exact (Consumes.lift' _).bind' fun _ => (sampleDisc_consumes sp).bind' fun _ =>
          (sampleFrom_consumes sp h0 _ _).bind' fun _ => Consumes.pure' _
      · exact (sample_consumes sp h0).bind' fun _ => Consumes.throw' _

theorem newborn_consumes (sp : Space) (h : KnownL sp.params) (pos : Pos) (s : PSState) : Consumes (sp.newborn pos s) := by
  unfold Space.newborn
  split
  · exact (newbornFromPrior_consumes _ (fun k p hk => h.mem hk) _).bind' fun _ => Consumes.pure' _
  · exact (Consumes.lift' _).bind' fun _ => newbornFromNeighbour_consumes _ _ _ _ (fun k p hk => h.mem hk) _

theorem vorBirth_consumes (sp : Space) (h : KnownL sp.params) (s : PSState) : Consumes (vorBirth sp s) := by
  unfold vorBirth
  split
  · exact Consumes.throw' _
  · refine (Consumes.uniform' _ _).bind' fun _ => (newborn_consumes sp h _ _).bind' fun _ => ?_
    simp only
    consume
  · refine (sampleSite2_consumes _).bind' fun _ => (newborn_consumes sp h _ _).bind' fun _ => ?_
    simp only
    consume

theorem get?_mem : ∀ (ps : ParamList) (k : String) (p : Param), ps.get? k = some p → (k, p) ∈ ps.toList
  | .nil, k, p, h => by rw [ParamList.get?] at h; cases h
  | .cons n p0 rest, k, p, h => by
    rw [ParamList.get?] at h
    rw [ParamList.toList]
    split at h
    · rename_i e; injection h with h; rw [e, h]; exact List.mem_cons_self ..
    · exact List.mem_cons_of_mem _ (get?_mem rest k p h)

theorem birthValues_consumes (ps : ParamList) (h : KnownL ps) (i : ℕ) : ∀ l, Consumes (birthValues ps i l)
  | [] => Consumes.pure' _
  | (k, v) :: rest => by
    rw [birthValues.eq_def]
    simp only
    refine Consumes.bind' ?_ fun x => (Consumes.lift' _).bind' fun _ =>
      (birthValues_consumes ps h i rest).bind' fun _ => Consumes.pure' _
    match hg : ps.get? k with
    | none => exact Consumes.throw' _
    | some (.prior q) =>
      have := h.mem (get?_mem _ _ _ hg)
      rw [KnownP] at this
      exact (this _).bind' fun _ => Consumes.pure' _
    | some (.space s) =>
      have := h.mem (get?_mem _ _ _ hg)
      rw [KnownP] at this
      exact (sample_consumes s this).bind' fun _ => Consumes.pure' _

theorem birth_consumes (sp : Space) (h : KnownL sp.params) (s : PSState) : Consumes (sp.birth s) := by
  unfold Space.birth
  split
  · refine Consumes.bind' ?_ fun _ => (Consumes.lift' _).bind' fun _ => Consumes.pure' _
    split
    · exact Consumes.pure' _
    · exact vorBirth_consumes sp h s
  · unfold plainBirth
    split
    · exact Consumes.pure' _
    · exact (Consumes.randint' _ _).bind' fun _ => (birthValues_consumes _ h _ _).bind' fun _ =>
        (Consumes.lift' _).bind' fun _ => Consumes.pure' _

theorem death_consumes (sp : Space) (s : PSState) : Consumes (sp.death s) := by
  unfold Space.death plainDeath vorDeath
  have := fun n => Consumes.randIdx' n
  consume
  all_goals exact this _

theorem perturbSite_consumes (sp : Space) (s : PSState) (i : ℕ) : Consumes (sp.perturbSite s i) := by
  have h1 : ∀ (v : Vor1) x, Consumes (v.perturbSite x) := fun v x =>
    Consumes.until' ((Consumes.normal' _ _).bind' fun _ => Consumes.pure' _)
  have h2 : ∀ (v : Vor2) x, Consumes (v.perturbSite x) := fun v x =>
    Consumes.until' ((Consumes.npNormal' _ _).bind' fun _ => (Consumes.npNormal' _ _).bind' fun _ => Consumes.pure' _)
  unfold Space.perturbSite
  refine Consumes.bind' ?_ fun _ => (Consumes.lift' _).bind' fun _ => Consumes.pure' _
  unfold vorMove
  split
  · exact Consumes.throw' _
  · split
    · split
      · exact Consumes.throw' _
      · exact (h1 _ _).bind' fun _ => (Consumes.lift' _).bind' fun _ => (Consumes.lift' _).bind' fun _ =>
          (Consumes.lift' _).bind' fun _ => Consumes.pure' _
    · exact Consumes.throw' _
  · split
    · split
      · exact Consumes.throw' _
      · exact (h2 _ _).bind' fun _ => (Consumes.lift' _).bind' fun _ => (Consumes.lift' _).bind' fun _ => Consumes.pure' _
    · exact Consumes.throw' _

theorem perturbPriors_consumes (s : PSState) (idx : ℕ) : ∀ (l : List Prior) vals lpr,
    Consumes (perturbPriors s idx l vals lpr)
  | [], _, _ => Consumes.pure' _
  | p :: rest, vals, lpr => by
    rw [perturbPriors.eq_def]
    simp only
    split
    · exact (Consumes.lift' _).bind' fun _ => (Consumes.lift' _).bind' fun _ => (perturbValue_consumes _ _ _ _).bind' fun _ =>
        perturbPriors_consumes s idx rest _ _
    · exact Consumes.throw' _
    · exact Consumes.throw' _

theorem func_consumes {sp : Space} (h : KnownL sp.params) {f : PSFunc} (hf : f ∈ sp.ownPert.funcs) (s : PSState) :
    Consumes (f.run s) := by
  have hc : f = .birth sp ∨ f = .death sp ∨ f = .site sp ∨ ∃ n l, f = .values n l := by
    obtain ⟨⟨f', w⟩, h1, h2⟩ := List.mem_map.1 hf
    have h2 : f' = f := h2
    subst h2
    unfold Space.ownFuncs at h1
    rcases List.mem_append.1 h1 with h1 | h1
    · rcases List.mem_append.1 h1 with h1 | h1
      · split at h1
        · simp only [List.mem_cons, Prod.mk.injEq, List.not_mem_nil, or_false] at h1
          rcases h1 with h1 | h1
          · exact Or.inl h1.1
          · exact Or.inr (Or.inl h1.1)
        · simp at h1
      · split at h1
        · simp at h1
        · simp only [List.mem_singleton, Prod.mk.injEq] at h1
          exact Or.inr (Or.inr (Or.inr ⟨_, _, h1.1⟩))
    · split at h1
      · simp only [List.mem_singleton, Prod.mk.injEq] at h1
        exact Or.inr (Or.inr (Or.inl h1.1))
      · simp at h1
  rcases hc with rfl | rfl | rfl | ⟨n, l, rfl⟩
  · exact birth_consumes sp h s
  · exact death_consumes sp s
  · exact (Consumes.randIdx' _).bind' fun _ => perturbSite_consumes _ _ _
  · exact (Consumes.randIdx' _).bind' fun _ => (perturbPriors_consumes _ _ _ _ _).bind' fun _ => Consumes.pure' _

/-- The members of the group use the draws in turn. -/
def GroupConsumes (g : PSPert) : Prop := ∀ f ∈ g.funcs, ∀ s, Consumes (f.run s)

theorem perturbPS_consumes {g : PSPert} (h : GroupConsumes g) (s : PSState) : Consumes (g.perturbPS s) := by
  unfold PSPert.perturbPS
  refine (Consumes.choices' _ _).bind' fun i => ?_
  split
  · exact Consumes.throw' _
  · rename_i f hf
    exact (h f (List.mem_of_getElem? hf) s).bind' fun _ => Consumes.pure' _

theorem visit_consumes {g : PSPert} (h : GroupConsumes g) (target : ℕ) (key : String) (path : Path) (s : PSState)
    (l : PertLocals) : Consumes (g.visit target key path s l) := by
  unfold PSPert.visit
  split
  · exact (perturbPS_consumes h s).bind' fun _ => Consumes.pure' _
  · exact Consumes.pure' _

theorem visitAll_consumes {g : PSPert} (h : GroupConsumes g) (target : ℕ) : ∀ (qs : List QItem) (l : PertLocals),
    Consumes (g.visitAll target qs l)
  | [], l => Consumes.pure' _
  | q :: qs, l => by
    rw [PSPert.visitAll]
    exact (visit_consumes h _ _ _ _ _).bind' fun l => visitAll_consumes h target qs l

theorem pertVals_consumes {g : PSPert} (h : GroupConsumes g) (target : ℕ) (q : QItem) :
    ∀ (vals : List (String × PVal)) (l : PertLocals), Consumes (g.pertVals target q vals l)
  | [], l => Consumes.pure' _
  | (k, .arr a) :: rest, l => by rw [PSPert.pertVals]; exact pertVals_consumes h target q rest l
  | (k, .objs a) :: rest, l => by rw [PSPert.pertVals]; exact pertVals_consumes h target q rest l
  | (k, .states xs) :: rest, l => by
    rw [PSPert.pertVals]
    split
    · refine (visitAll_consumes h _ _ _).bind' fun l => ?_
      split
      · exact Consumes.throw' _
      · exact pertVals_consumes h target q rest l
    · split
      · exact Consumes.throw' _
      · exact (pertVals_consumes h target q rest l).bind' fun _ => Consumes.pure' _

theorem pertQueue_consumes {g : PSPert} (h : GroupConsumes g) (target : ℕ) : ∀ (fuel : ℕ) (queue : List QItem)
    (l : PertLocals), Consumes (g.pertQueue target fuel queue l)
  | fuel, [], l => by cases fuel <;> exact Consumes.pure' _
  | 0, q :: queue, l => by rw [PSPert.pertQueue]; exact Consumes.throw' _
  | fuel + 1, q :: queue, l => by
    rw [PSPert.pertQueue]
    split
    · exact (pertVals_consumes h _ _ _ _).bind' fun _ => pertQueue_consumes h target fuel _ _
    · exact Consumes.pure' _

theorem pertTop_consumes {g : PSPert} (h : GroupConsumes g) (target : ℕ) : ∀ (p : Params) (l : PertLocals),
    Consumes (g.pertTop target p l)
  | [], l => Consumes.pure' _
  | (k, .noise d) :: rest, l => by rw [PSPert.pertTop]; exact pertTop_consumes h target rest l
  | (k, .ps s) :: rest, l => by
    rw [PSPert.pertTop]
    split
    · exact (visit_consumes h _ _ _ _ _).bind' fun l => pertTop_consumes h target rest l
    · exact (pertTop_consumes h target rest l).bind' fun _ => Consumes.pure' _

theorem perturb_consumes {g : PSPert} (h : GroupConsumes g) (s : State) : Consumes (g.perturb s) := by
  unfold PSPert.perturb
  exact (Consumes.lift' _).bind' fun _ => (Consumes.randIdx' _).bind' fun _ => (pertTop_consumes h _ _ _).bind' fun _ =>
    (pertQueue_consumes h _ _ _ _).bind' fun _ => Consumes.pure' _

theorem redraw_consumes (a b s x : ℝ) : Consumes (redraw a b s x) :=
  Consumes.until' ((Consumes.normal' _ _).bind' fun _ => Consumes.pure' _)

theorem perturbNoises_consumes (p : Params) : ∀ ts acc, Consumes (perturbNoises p ts acc)
  | [], _ => Consumes.pure' _
  | t :: ts, acc => by
    rw [perturbNoises]
    refine (Consumes.lift' _).bind' fun d => Consumes.bind' ?_ fun _ => perturbNoises_consumes p ts _
    unfold Target.perturbNoise
    refine (redraw_consumes _ _ _ _).bind' fun _ => ?_
    split
    · split
      · exact Consumes.throw' _
      · exact (redraw_consumes _ _ _ _).bind' fun _ => Consumes.pure' _
    · exact Consumes.pure' _

theorem noisePerturb_consumes (ts : List Target) (s : State) : Consumes (noisePerturb ts s) :=
  (perturbNoises_consumes _ _ _).bind' fun _ => Consumes.pure' _

end Lemmas

end BB
