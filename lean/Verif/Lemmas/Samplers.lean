import Verif.Model.Samplers
import Verif.Lemmas.Chain
import Verif.Spec.Schedule

/-!
# Lemmas about the samplers
-/

namespace BB.Lemmas

open BB BB.Spec

variable {S σ E : Type}

theorem runAll_keeps {C : Type} {R : C → C → Prop} (hrefl : ∀ a, R a a)
    (htr : ∀ a b c, R a b → R b c → R a c) {fs : List (Act C Unit)}
    (h : ∀ f ∈ fs, Act.Keeps f R) : Act.Keeps (runAll fs) R := by
  induction fs with
  | nil => intro c t; exact hrefl c
  | cons f fs ih =>
    exact Act.Keeps.bind htr (h f (by simp)) fun _ => ih fun g hg => h g (by simp [hg])

theorem begin_keeps {R : Chain S σ E → Chain S σ E → Prop} (hrefl : ∀ a, R a a)
    (htr : ∀ a b c, R a b → R b c → R a c) {d : SamplerDef S σ E} (h1 : Act.Keeps d.onBegin R)
    (h2 : ∀ f ∈ d.extraBegin, Act.Keeps f R) : Act.Keeps d.beginIteration R :=
  Act.Keeps.bind htr h1 fun _ => runAll_keeps hrefl htr h2

theorem end_keeps {R : Chain S σ E → Chain S σ E → Prop} (hrefl : ∀ a, R a a)
    (htr : ∀ a b c, R a b → R b c → R a c) {d : SamplerDef S σ E} (h1 : Act.Keeps d.onEnd R)
    (h2 : ∀ f ∈ d.extraEnd, Act.Keeps f R) : Act.Keeps d.endIteration R :=
  Act.Keeps.bind htr h1 fun _ => runAll_keeps hrefl htr h2

theorem begin_keeps_eq {β : Type} (g : Chain S σ E → β) {d : SamplerDef S σ E}
    (h1 : Act.Keeps d.onBegin fun c c' => g c' = g c)
    (h2 : ∀ f ∈ d.extraBegin, Act.Keeps f fun c c' => g c' = g c) :
    Act.Keeps d.beginIteration fun c c' => g c' = g c :=
  begin_keeps (R := fun c c' => g c' = g c) (fun _ => rfl) (fun _ _ _ h1 h2 => h2.trans h1) h1 h2

theorem end_keeps_eq {β : Type} (g : Chain S σ E → β) {d : SamplerDef S σ E}
    (h1 : Act.Keeps d.onEnd fun c c' => g c' = g c)
    (h2 : ∀ f ∈ d.extraEnd, Act.Keeps f fun c c' => g c' = g c) :
    Act.Keeps d.endIteration fun c c' => g c' = g c :=
  end_keeps (R := fun c c' => g c' = g c) (fun _ => rfl) (fun _ _ _ h1 h2 => h2.trans h1) h1 h2

theorem skip_keeps {C : Type} {R : C → C → Prop} (hrefl : ∀ a, R a a) :
    Act.Keeps (Act.skip : Act C Unit) R := fun c _ => hrefl c

/-! ### All chains advance -/

/-- The function has been applied, successfully, to each chain: the `k`-th result and the `k`-th chain
afterwards come from the `k`-th chain, in some world and with some draws. -/
inductive Each {α : Type} (f : Act (Chain S σ E) α) :
    List (Chain S σ E) → List α → List (Chain S σ E) → Prop
  | nil : Each f [] [] []
  | cons {c c' : Chain S σ E} {a : α} {w : E} {t t' : List Draw} {cs cs' : List (Chain S σ E)}
      {as : List α} (h : f { c with world := w } t = (.ok a, c', t')) (hr : Each f cs as cs') :
      Each f (c :: cs) (a :: as) (c' :: cs')

theorem advSeq_each {α : Type} {f : Act (Chain S σ E) α} {cs cs' : List (Chain S σ E)} {w w' : E}
    {t t' : List Draw} {as : List α} (h : advSeq f cs w t = (.ok as, cs', w', t')) :
    Each f cs as cs' := by
  induction cs generalizing w t w' t' as cs' with
  | nil =>
    simp only [advSeq, Prod.mk.injEq, Except.ok.injEq] at h
    obtain ⟨rfl, rfl, -⟩ := h
    exact .nil
  | cons c cs ih =>
    rw [advSeq] at h
    match hf : f { c with world := w } t with
    | (.error e, c1, t1) => rw [hf] at h; simp at h
    | (.ok a, c1, t1) =>
      rw [hf] at h
      simp only at h
      match hr : advSeq f cs c1.world t1 with
      | (.error e, cs1, w1, t2) => rw [hr] at h; simp at h
      | (.ok as1, cs1, w1, t2) =>
        rw [hr] at h
        simp only [Prod.mk.injEq, Except.ok.injEq] at h
        obtain ⟨rfl, rfl, -⟩ := h
        exact .cons hf (ih hr)

theorem advPar_each {α : Type} {f : Act (Chain S σ E) α} {work : ℕ → List Draw} {w : E} {j : ℕ}
    {cs cs' : List (Chain S σ E)} {as : List α} (h : advPar f work w j cs = .ok (as, cs')) :
    Each f cs as cs' := by
  induction cs generalizing j as cs' with
  | nil =>
    simp only [advPar, Except.ok.injEq, Prod.mk.injEq] at h
    obtain ⟨rfl, rfl⟩ := h
    exact .nil
  | cons c cs ih =>
    rw [advPar] at h
    match hf : f { c with world := w } (work j) with
    | (.error e, c1, t1) => rw [hf] at h; simp at h
    | (.ok a, c1, t1) =>
      rw [hf] at h
      simp only at h
      match hr : advPar f work w (j + 1) cs with
      | .error e => rw [hr] at h; simp at h
      | .ok (as1, cs1) =>
        rw [hr] at h
        simp only [Except.ok.injEq, Prod.mk.injEq] at h
        obtain ⟨rfl, rfl⟩ := h
        exact .cons hf (ih hr)

theorem samp_each {α : Type} {par : Par} {f : Act (Chain S σ E) α} {s s' : Samp S σ E}
    {t t' : List Draw} {as : List α} (h : Samp.each par f s t = (.ok as, s', t')) :
    Each f s.chains as s'.chains := by
  unfold Samp.each at h
  match hn : par.nJobs with
  | none => rw [hn] at h; simp at h
  | some n =>
    rw [hn] at h
    simp only at h
    split at h
    · match hr : advPar f (par.work s.batch) s.world 0 s.chains with
      | .error e => rw [hr] at h; simp at h
      | .ok (as1, cs1) =>
        rw [hr] at h
        simp only [Prod.mk.injEq, Except.ok.injEq] at h
        obtain ⟨rfl, rfl, -⟩ := h
        exact advPar_each hr
    · match hr : advSeq f s.chains s.world t with
      | (r, cs1, w1, t1) =>
        rw [hr] at h
        simp only [Prod.mk.injEq] at h
        obtain ⟨rfl, rfl, -⟩ := h
        exact advSeq_each hr

/-! Building runs. -/

theorem advPar_cons {α : Type} {f : Act (Chain S σ E) α} {work : ℕ → List Draw} {w : E} {j : ℕ}
    {c c' : Chain S σ E} {a : α} {t : List Draw} {cs cs' : List (Chain S σ E)} {as : List α}
    (h : f { c with world := w } (work j) = (.ok a, c', t))
    (hr : advPar f work w (j + 1) cs = .ok (as, cs')) :
    advPar f work w j (c :: cs) = .ok (a :: as, c' :: cs') := by
  rw [advPar, h]
  simp only [hr]

theorem samp_each_par {α : Type} {par : Par} {nj : ℤ} (hn : par.nJobs = some nj) (hj : 1 < nj)
    {f : Act (Chain S σ E) α} {s : Samp S σ E} {t : List Draw} {as : List α}
    {cs : List (Chain S σ E)}
    (h : advPar f (par.work s.batch) s.world 0 s.chains = .ok (as, cs)) :
    Samp.each par f s t = (.ok as, { s with chains := cs, batch := s.batch + 1 }, t) := by
  unfold Samp.each
  rw [hn]
  simp only [hj, if_true, h]

theorem Each.lengths {α : Type} {f : Act (Chain S σ E) α} {cs cs' : List (Chain S σ E)}
    {as : List α} (h : Each f cs as cs') : as.length = cs.length ∧ cs'.length = cs.length := by
  induction h with
  | nil => exact ⟨rfl, rfl⟩
  | cons _ _ ih => exact ⟨by simp [ih.1], by simp [ih.2]⟩

theorem Each.get {α : Type} {f : Act (Chain S σ E) α} {cs cs' : List (Chain S σ E)} {as : List α}
    (h : Each f cs as cs') {k : ℕ} {c : Chain S σ E} (hk : cs[k]? = some c) :
    ∃ a c' w t t', as[k]? = some a ∧ cs'[k]? = some c' ∧
      f { c with world := w } t = (.ok a, c', t') := by
  induction h generalizing k with
  | nil => simp at hk
  | @cons c0 c1 a w t t' cs cs' as hf hr ih =>
    cases k with
    | zero =>
      simp only [List.getElem?_cons_zero, Option.some.injEq] at hk
      subst hk
      exact ⟨a, c1, w, t, t', rfl, rfl, hf⟩
    | succ k =>
      simp only [List.getElem?_cons_succ] at hk ⊢
      exact ih hk

/-- A relation between a chain before and after that does not involve the world. -/
theorem Each.rel {α : Type} {f : Act (Chain S σ E) α} {cs cs' : List (Chain S σ E)} {as : List α}
    (h : Each f cs as cs') {R : Chain S σ E → Chain S σ E → Prop}
    (hR : ∀ c w t a c' t', f { c with world := w } t = (.ok a, c', t') → R c c') :
    List.Forall₂ R cs cs' := by
  induction h with
  | nil => exact .nil
  | cons hf _ ih => exact .cons (hR _ _ _ _ _ _ hf) ih

/-- Also when something is raised. -/
theorem samp_each_keeps {α : Type} {par : Par} {f : Act (Chain S σ E) α}
    {R : Chain S σ E → Chain S σ E → Prop} (hrefl : ∀ c, R c c)
    (hR : ∀ c w t, R c (f { c with world := w } t).2.1) :
    Act.Keeps (Samp.each par f) (fun s s' => List.Forall₂ R s.chains s'.chains) := by
  have hseq : ∀ (cs : List (Chain S σ E)) w t, List.Forall₂ R cs (advSeq f cs w t).2.1 := by
    intro cs
    induction cs with
    | nil => intro w t; exact .nil
    | cons c cs ih =>
      intro w t
      have h1 := hR c w t
      rw [advSeq]
      match hf : f { c with world := w } t with
      | (.error e, c1, t1) =>
        rw [hf] at h1
        exact .cons h1 (List.forall₂_same.2 fun x _ => hrefl x)
      | (.ok a, c1, t1) =>
        rw [hf] at h1
        have h2 := ih c1.world t1
        simp only
        match hr : advSeq f cs c1.world t1 with
        | (.error e, cs1, w1, t2) => rw [hr] at h2; exact .cons h1 h2
        | (.ok as1, cs1, w1, t2) => rw [hr] at h2; exact .cons h1 h2
  intro s t
  unfold Samp.each
  have hid : List.Forall₂ R s.chains s.chains := List.forall₂_same.2 fun x _ => hrefl x
  split
  · exact hid
  · split
    · match hr : advPar f (par.work s.batch) s.world 0 s.chains with
      | .error e => exact hid
      | .ok (as1, cs1) =>
        refine (advPar_each hr).rel fun c w t a c' t' h => ?_
        have := hR c w t
        rw [h] at this
        exact this
    · have := hseq s.chains s.world t
      match hr : advSeq f s.chains s.world t with
      | (r, cs1, w1, t1) => rw [hr] at this; exact this

theorem advanceChain_ok {cfg : ChainCfg S σ} {par : Par} {d : SamplerDef S σ E} {n b sv : ℤ}
    {s s' : Samp S σ E} {t t' : List Draw} {evs : List (List (Event S))} :
    d.advanceChain cfg par n b sv s t = (.ok evs, s', t') ↔
      ∃ s1 t1, Samp.each par
        (Chain.advance cfg b sv d.beginIteration d.endIteration n.toNat) s t = (.ok evs, s1, t1) ∧
        d.onEndAdvance s1 t1 = (.ok (), s', t') := by
  unfold SamplerDef.advanceChain
  constructor
  · intro h
    obtain ⟨evs1, s1, t1, h1, h⟩ := Act.bind_ok.1 h
    obtain ⟨_, s2, t2, h2, h⟩ := Act.bind_ok.1 h
    simp only [Act.pure_run, Prod.mk.injEq, Except.ok.injEq] at h
    obtain ⟨rfl, rfl, rfl⟩ := h
    exact ⟨s1, t1, h1, h2⟩
  · rintro ⟨s1, t1, h1, h2⟩
    exact Act.bind_ok.2 ⟨evs, s1, t1, h1, Act.bind_ok.2 ⟨(), s', t', h2, rfl⟩⟩

/-! ### Iterations and temperatures -/

variable (cfg : ChainCfg S σ)

theorem advance_total {b s : ℤ} {bi ei : Act (Chain S σ E) Unit}
    (hb : Act.Keeps bi fun c c' => c'.total = c.total)
    (he : Act.Keeps ei fun c c' => c'.total = c.total) {n : ℕ} {c c' : Chain S σ E}
    {t t' : List Draw} {evs : List (Event S)}
    (h : Chain.advance cfg b s bi ei n c t = (.ok evs, c', t')) :
    c'.total = c.total + n ∧ evs.length = n := by
  induction n generalizing c t evs with
  | zero =>
    rw [advance_zero] at h
    simp only [Prod.mk.injEq, Except.ok.injEq] at h
    obtain ⟨rfl, rfl, rfl⟩ := h
    exact ⟨rfl, rfl⟩
  | succ n ih =>
    rw [advance_succ_ok] at h
    obtain ⟨ev, evs', c1, t1, rfl, h1, h2⟩ := h
    obtain ⟨c2, c3, c4, t2, t3, b1, b2, b3, b4⟩ := (iteration_ok cfg).1 h1
    have e1 := ((setFlag_ok).1 b1).2.2
    have e3 := next_effect cfg b3
    obtain ⟨i1, i2⟩ := ih h2
    refine ⟨?_, by simp [i2]⟩
    rw [i1, he.ok b4, e3.total, hb.ok b2, e1]
    simp only
    omega

theorem attempt_temp :
    Act.Keeps (Chain.attempt cfg : Act (Chain S σ E) _) (fun c c' => c'.temp = c.temp) := by
  classical
  have hfin : ∀ (c : Chain S σ E) t name new lp,
      (Chain.finish cfg name new lp c t).2.1.temp = c.temp := by
    intro c t name new lp
    cases t with
    | nil => rfl
    | cons d t =>
      rw [finish_run]
      split
      · rfl
      · split
        · split <;> rfl
        · rename_i p a hn
          have h4 : ∀ c1 : Chain S σ E, (Chain.saveIfDue cfg c1 t).2.1.temp = c1.temp := by
            intro c1
            unfold Chain.saveIfDue
            split <;> rfl
          have h5 := h4 (afterStats c new (decide (lp.gtFin (Real.log d.u))) p a)
          split
          · rename_i c2 t1 hs; rw [hs] at h5; simp only at h5 ⊢; rw [h5]; rfl
          · rename_i e c2 t1 hs; rw [hs] at h5; simp only at h5 ⊢; rw [h5]; rfl
  intro c t
  by_cases hch : ∃ name f t1, Chosen cfg t name f t1
  · obtain ⟨name, f, t1, hch⟩ := hch
    rw [attempt_chosen cfg hch]
    split
    · rfl
    · rfl
    · rename_i new lpr t2 hprop
      split
      · have := hfin c t2 name new (lpr.add (.fin 0))
        split
        · rename_i ev c2 t3 hs; rw [hs] at this; exact this
        · rename_i e c2 t3 hs; rw [hs] at this; exact this
      · split
        · rfl
        · rfl
        · rfl
        · rename_i r cur new1 hl
          have := hfin { c with cur := cur } t2 name new1 (lpr.add r)
          split
          · rename_i ev c2 t3 hs; rw [hs] at this; exact this
          · rename_i e c2 t3 hs; rw [hs] at this; exact this
  · obtain ⟨e, t', he⟩ := attempt_not_chosen cfg (c := c) (t := t)
      (fun name f t1 hh => hch ⟨name, f, t1, hh⟩)
    rw [he]

/-- The temperature is changed by the hooks only, whatever the outcome. -/
theorem advance_temp {b s : ℤ} {bi ei : Act (Chain S σ E) Unit}
    (hb : Act.Keeps bi fun c c' => c'.temp = c.temp)
    (he : Act.Keeps ei fun c c' => c'.temp = c.temp) (n : ℕ) :
    Act.Keeps (Chain.advance cfg b s bi ei n) (fun c c' => c'.temp = c.temp) := by
  intro c t
  have := advance_inv cfg (P := fun c1 : Chain S σ E => c1.temp = c.temp) (b := b) (s := s)
    (bi := bi) (ei := ei) (fun _ _ h => h) (fun c1 t h => (hb c1 t).trans h)
    (fun c1 t h => (he c1 t).trans h)
    (next_inv cfg fun c1 t h => (attempt_temp cfg c1 t).trans h) n c t rfl
  exact this

theorem advance_events_temp {b s : ℤ} {bi ei : Act (Chain S σ E) Unit}
    (hb : Act.Keeps bi fun c c' => c'.temp = c.temp)
    (he : Act.Keeps ei fun c c' => c'.temp = c.temp) {n : ℕ} {c c' : Chain S σ E}
    {t t' : List Draw} {evs : List (Event S)}
    (h : Chain.advance cfg b s bi ei n c t = (.ok evs, c', t')) :
    ∀ ev ∈ evs, ev.temp = c.temp := by
  induction n generalizing c t evs with
  | zero =>
    rw [advance_zero] at h
    simp only [Prod.mk.injEq, Except.ok.injEq] at h
    obtain ⟨rfl, rfl, rfl⟩ := h
    simp
  | succ n ih =>
    rw [advance_succ_ok] at h
    obtain ⟨ev, evs', c1, t1, rfl, h1, h2⟩ := h
    obtain ⟨c2, c3, c4, t2, t3, b1, b2, b3, b4⟩ := (iteration_ok cfg).1 h1
    have e1 := ((setFlag_ok).1 b1).2.2
    have e3 := next_effect cfg b3
    have ht3 : c3.temp = c.temp := by rw [hb.ok b2, e1]
    have ht1 : c1.temp = c.temp := by rw [he.ok b4, e3.temp, ht3]
    intro e hmem
    rcases List.mem_cons.1 hmem with rfl | hmem
    · rw [e3.evTemp, ht3]
    · rw [ih h2 e hmem, ht1]

/-! ### Swaps -/

/-- What a swap leaves alone in a chain. -/
def SameRun (c c' : Chain S σ E) : Prop :=
  c'.saved = c.saved ∧ c'.total = c.total ∧ c'.saveNow = c.saveNow ∧ c'.proposed = c.proposed ∧
    c'.accepted = c.accepted ∧ c'.accTotal = c.accTotal ∧ c'.exceptions = c.exceptions ∧
    c'.world = c.world

theorem SameRun.refl (c : Chain S σ E) : SameRun c c := ⟨rfl, rfl, rfl, rfl, rfl, rfl, rfl, rfl⟩

theorem SameRun.trans {a b c : Chain S σ E} (h1 : SameRun a b) (h2 : SameRun b c) : SameRun a c := by
  obtain ⟨a1, a2, a3, a4, a5, a6, a7, a8⟩ := h1
  obtain ⟨b1, b2, b3, b4, b5, b6, b7, b8⟩ := h2
  exact ⟨b1.trans a1, b2.trans a2, b3.trans a3, b4.trans a4, b5.trans a5, b6.trans a6, b7.trans a7,
    b8.trans a8⟩

theorem forall₂_set {α : Type} {R : α → α → Prop} (hrefl : ∀ a, R a a) {l : List α} {i : ℕ}
    {a b : α} (h : l[i]? = some a) (hab : R a b) : List.Forall₂ R l (l.set i b) := by
  induction l generalizing i with
  | nil => simp at h
  | cons x l ih =>
    cases i with
    | zero =>
      simp only [List.getElem?_cons_zero, Option.some.injEq] at h
      subst h
      exact .cons hab (List.forall₂_same.2 fun x _ => hrefl x)
    | succ i => exact .cons (hrefl x) (ih (by simpa using h))

theorem forall₂_trans {α : Type} {R : α → α → Prop} (htr : ∀ a b c, R a b → R b c → R a c)
    {l1 l2 l3 : List α} (h1 : List.Forall₂ R l1 l2) (h2 : List.Forall₂ R l2 l3) :
    List.Forall₂ R l1 l3 := by
  induction h1 generalizing l3 with
  | nil => cases h2; exact .nil
  | cons h _ ih =>
    cases h2 with
    | cons h' hr => exact .cons (htr _ _ _ h h') (ih hr)

theorem forall₂_refl {α : Type} {R : α → α → Prop} (hrefl : ∀ a, R a a) (l : List α) :
    List.Forall₂ R l l := List.forall₂_same.2 fun x _ => hrefl x

theorem forall₂_set_set {α : Type} {R : α → α → Prop} (hrefl : ∀ a, R a a)
    {l : List α} {i j : ℕ} (hij : i ≠ j)
    {a b a' b' : α} (hi : l[i]? = some a) (hj : l[j]? = some b) (ha : R a a') (hb : R b b')
    (htr : ∀ a b c, R a b → R b c → R a c) :
    List.Forall₂ R l ((l.set i a').set j b') := by
  refine forall₂_trans htr (forall₂_set hrefl hi ha) (forall₂_set hrefl (a := b) ?_ hb)
  rw [List.getElem?_set_ne hij]
  exact hj

theorem pickTwo_ok {n : ℕ} {t t' : List Draw} {i j : ℕ} (h : pickTwo n t = (.ok (i, j), t')) :
    i < n ∧ j < n ∧ i ≠ j := by
  unfold pickTwo at h
  split at h
  · simp [M.throw] at h
  · rename_i hn
    match t with
    | [] => simp [M.draw, bind] at h
    | [d] => simp [M.draw, bind] at h
    | d :: d' :: t =>
      simp only [bind, M.draw, pure, Prod.mk.injEq, Except.ok.injEq] at h
      obtain ⟨⟨rfl, rfl⟩, -⟩ := h
      have h1 : d.n % n < n := Nat.mod_lt _ (by omega)
      have h2 : d'.n % (n - 1) < n - 1 := Nat.mod_lt _ (by omega)
      refine ⟨h1, ?_, ?_⟩
      · split <;> omega
      · split <;> omega

/-- Everything a swap attempt of two different chains can do, whatever the outcome. -/
theorem ptSwap_keeps {i j : ℕ} (hij : i ≠ j) (s : Samp S σ E) (t : List Draw) :
    let s' := (ptSwap cfg i j s t).2.1
    List.Forall₂ SameRun s.chains s'.chains ∧
      (s'.chains.map (·.temp)).Perm (s.chains.map (·.temp)) ∧ s'.world = s.world ∧
      s'.batch = s.batch := by
  classical
  simp only
  have hid : List.Forall₂ SameRun s.chains s.chains := forall₂_refl SameRun.refl _
  unfold ptSwap
  match hi : s.chains[i]?, hj : s.chains[j]? with
  | none, _ => exact ⟨hid, List.Perm.refl _, rfl, rfl⟩
  | some c1, none => exact ⟨hid, List.Perm.refl _, rfl, rfl⟩
  | some c1, some c2 =>
    simp only
    generalize cfg.llr c1.cur c2.cur c1.temp = x
    obtain ⟨r, s1, s2⟩ := x
    unfold ptDecide
    simp only
    have hi' : i < s.chains.length := (List.getElem?_eq_some_iff.1 hi).1
    have hj' : j < s.chains.length := (List.getElem?_eq_some_iff.1 hj).1
    have ei : s.chains[i] = c1 := (List.getElem?_eq_some_iff.1 hi).2
    have ej : s.chains[j] = c2 := (List.getElem?_eq_some_iff.1 hj).2
    have hsame : List.Forall₂ SameRun s.chains
        ((s.chains.set i { c1 with cur := s1 }).set j { c2 with cur := s2 }) :=
      forall₂_set_set SameRun.refl hij hi hj (SameRun.refl _) (SameRun.refl _)
        fun _ _ _ => SameRun.trans
    have htemp : ((s.chains.set i { c1 with cur := s1 }).set j { c2 with cur := s2 }).map (·.temp) =
        s.chains.map (·.temp) := by
      rw [List.map_set, List.map_set]
      have e1 : (s.chains.map (·.temp)).set i c1.temp = s.chains.map (·.temp) := by
        have := List.set_getElem_self (as := s.chains.map (·.temp)) (i := i) (by simpa using hi')
        simpa [ei] using this
      have e2 : (s.chains.map (·.temp)).set j c2.temp = s.chains.map (·.temp) := by
        have := List.set_getElem_self (as := s.chains.map (·.temp)) (i := j) (by simpa using hj')
        simpa [ej] using this
      simp only [e1, e2]
    have hq : List.Forall₂ SameRun s.chains
        ((s.chains.set i { c1 with cur := s1 }).set j { c2 with cur := s2 }) ∧
        (((s.chains.set i { c1 with cur := s1 }).set j { c2 with cur := s2 }).map (·.temp)).Perm
          (s.chains.map (·.temp)) ∧ s.world = s.world ∧ s.batch = s.batch :=
      ⟨hsame, by rw [htemp], rfl, rfl⟩
    match r with
    | .error e => exact hq
    | .ok r =>
      simp only
      split
      · exact hq
      · match t with
        | [] => exact hq
        | d :: t1 =>
          simp only
          split
          · exact hq
          · split
            · refine ⟨forall₂_set_set SameRun.refl hij hi hj (SameRun.refl _) (SameRun.refl _)
                fun _ _ _ => SameRun.trans, ?_, rfl, rfl⟩
              simp only [List.map_set, Chain.setTemp]
              have := List.set_set_perm (as := s.chains.map (·.temp)) (i := i) (j := j)
                (by simpa using hi') (by simpa using hj')
              simpa [ei, ej] using this
            · exact hq

/-- What a relation on the sampler kept by the swaps. -/
def SwapRel (s s' : Samp S σ E) : Prop :=
  List.Forall₂ SameRun s.chains s'.chains ∧
    (s'.chains.map (·.temp)).Perm (s.chains.map (·.temp)) ∧ s'.world = s.world ∧ s'.batch = s.batch

theorem SwapRel.refl (s : Samp S σ E) : SwapRel s s :=
  ⟨forall₂_refl SameRun.refl _, List.Perm.refl _, rfl, rfl⟩

theorem SwapRel.trans {a b c : Samp S σ E} (h1 : SwapRel a b) (h2 : SwapRel b c) : SwapRel a c :=
  ⟨forall₂_trans (R := SameRun) (fun _ _ _ => SameRun.trans) h1.1 h2.1, h2.2.1.trans h1.2.1,
    h2.2.2.1.trans h1.2.2.1, h2.2.2.2.trans h1.2.2.2⟩

theorem ptSwapRandom_run (s : Samp S σ E) (t : List Draw) :
    ptSwapRandom cfg s t =
      match pickTwo s.chains.length t with
      | (.error e, t) => (.error e, s, t)
      | (.ok (i, j), t) => ptSwap cfg i j s t := by
  unfold ptSwapRandom
  simp only [bind, Act.get, Act.ofM]
  match pickTwo s.chains.length t with
  | (.error e, t) => rfl
  | (.ok (i, j), t) => rfl

theorem ptSwaps_keeps (k : ℕ) : Act.Keeps (ptSwaps cfg k : Act (Samp S σ E) Unit) SwapRel := by
  induction k with
  | zero => exact skip_keeps SwapRel.refl
  | succ k ih =>
    refine Act.Keeps.bind (fun _ _ _ => SwapRel.trans) ?_ fun _ => ih
    intro s t
    rw [ptSwapRandom_run]
    match hp : pickTwo s.chains.length t with
    | (.error e, t1) => exact SwapRel.refl s
    | (.ok (i, j), t1) => exact ptSwap_keeps cfg (pickTwo_ok hp).2.2 s t1

theorem ptEndAdvance_keeps : Act.Keeps (ptEndAdvance cfg : Act (Samp S σ E) Unit) SwapRel := by
  intro s t
  exact ptSwaps_keeps cfg s.chains.length s t

/-! ### The loop of parallel tempering -/

theorem ptRun_succ (par : Par) (d : SamplerDef S σ E) (sw n b sv : ℤ) (fuel : ℕ)
    (s : Samp S σ E) (t : List Draw) :
    ptRun cfg par d sw n b sv (fuel + 1) s t =
      match s.chains.head? with
      | none => (.error .indexError, s, t)
      | some c0 =>
        match d.advanceChain cfg par (ptIterations sw n c0.total) (ptBurnin sw b c0.total) sv s t with
        | (.error e, s, t) => (.error e, s, t)
        | (.ok evs, s, t) =>
          if n ≤ c0.total then (.ok (some evs), s, t)
          else match ptRun cfg par d sw n b sv fuel s t with
            | (.error e, s, t) => (.error e, s, t)
            | (.ok none, s, t) => (.ok none, s, t)
            | (.ok (some evs'), s, t) => (.ok (some (joinEvents evs evs')), s, t) := by
  rfl

theorem ptRun_keeps {R : Samp S σ E → Samp S σ E → Prop} (hrefl : ∀ a, R a a)
    (htr : ∀ a b c, R a b → R b c → R a c) {par : Par} {d : SamplerDef S σ E} {sw n b sv : ℤ}
    (h : ∀ k b, Act.Keeps (d.advanceChain cfg par k b sv) R) (fuel : ℕ) :
    Act.Keeps (ptRun cfg par d sw n b sv fuel) R := by
  induction fuel with
  | zero => intro s t; exact hrefl s
  | succ fuel ih =>
    intro s t
    rw [ptRun_succ]
    match hc : s.chains.head? with
    | none => exact hrefl s
    | some c0 =>
      simp only
      have h1 := h (ptIterations sw n c0.total) (ptBurnin sw b c0.total) s t
      match ha : d.advanceChain cfg par (ptIterations sw n c0.total) (ptBurnin sw b c0.total) sv s t with
      | (.error e, s1, t1) => rw [ha] at h1; exact h1
      | (.ok evs, s1, t1) =>
        rw [ha] at h1
        simp only
        split
        · exact h1
        · have h2 := ih s1 t1
          match hr : ptRun cfg par d sw n b sv fuel s1 t1 with
          | (.error e, s2, t2) => rw [hr] at h2; exact htr _ _ _ h1 h2
          | (.ok none, s2, t2) => rw [hr] at h2; exact htr _ _ _ h1 h2
          | (.ok (some evs'), s2, t2) => rw [hr] at h2; exact htr _ _ _ h1 h2

theorem advanceChain_keeps {R : Samp S σ E → Samp S σ E → Prop}
    (htr : ∀ a b c, R a b → R b c → R a c) (hrefl : ∀ a, R a a) {par : Par} {d : SamplerDef S σ E}
    {k b sv : ℤ}
    (h1 : Act.Keeps (Samp.each par
      (Chain.advance cfg b sv d.beginIteration d.endIteration k.toNat)) R)
    (h2 : Act.Keeps d.onEndAdvance R) : Act.Keeps (d.advanceChain cfg par k b sv) R :=
  Act.Keeps.bind htr h1 fun _ => Act.Keeps.bind htr h2 fun _ => Act.Keeps.pure' hrefl

theorem forall₂_get {α β : Type} {R : α → β → Prop} {l : List α} {l' : List β}
    (h : List.Forall₂ R l l') {k : ℕ} {a : α} (hk : l[k]? = some a) :
    ∃ b, l'[k]? = some b ∧ R a b := by
  induction h generalizing k with
  | nil => simp at hk
  | cons hab _ ih =>
    cases k with
    | zero =>
      simp only [List.getElem?_cons_zero, Option.some.injEq] at hk
      subst hk
      exact ⟨_, rfl, hab⟩
    | succ k => simpa using ih (by simpa using hk)

/-- One batch of parallel tempering: each chain advances, and the swaps change nothing but the
temperature and (the cache of) the current state. -/
theorem tempering_batch {f tmax : ℝ} {par : Par} {d : SamplerDef S σ E} {k b sv : ℤ}
    {s s' : Samp S σ E} {t t' : List Draw} {evs : List (List (Event S))}
    (h : (tempering cfg f tmax d).advanceChain cfg par k b sv s t = (.ok evs, s', t')) :
    s'.chains.length = s.chains.length ∧ evs.length = s.chains.length ∧
    ∀ (j : ℕ) (c : Chain S σ E), s.chains[j]? = some c →
      ∃ (ev : List (Event S)) (c1 c' : Chain S σ E) (w : E) (t1 t2 : List Draw),
        evs[j]? = some ev ∧ s'.chains[j]? = some c' ∧ SameRun c1 c' ∧
        Chain.advance cfg b sv (tempering cfg f tmax d).beginIteration
          (tempering cfg f tmax d).endIteration k.toNat { c with world := w } t1 =
          (.ok ev, c1, t2) := by
  obtain ⟨s1, t1, h1, h2⟩ := advanceChain_ok.1 h
  have hE := samp_each h1
  have hS : SwapRel s1 s' := (ptEndAdvance_keeps cfg).ok h2
  have hl : s'.chains.length = s1.chains.length := hS.1.length_eq.symm
  refine ⟨hl.trans hE.lengths.2, hE.lengths.1, fun j c hj => ?_⟩
  obtain ⟨ev, c1, w, t2, t3, e1, e2, e3⟩ := hE.get hj
  obtain ⟨c', e4, e5⟩ := forall₂_get hS.1 e2
  exact ⟨ev, c1, c', w, t2, t3, e1, e4, e5, e3⟩

end BB.Lemmas
