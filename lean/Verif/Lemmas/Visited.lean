import Verif.Lemmas.Samplers
import Verif.Spec.Visited

/-!
# Lemmas: the samplers only produce states of the set `Visited`
-/

namespace BB.Lemmas

open BB BB.Spec

variable {S σ E : Type} (cfg : ChainCfg S σ)

/-- Closed under everything that can happen to the current state. -/
structure Closed (P : S → Prop) : Prop where
  adopt : ∀ name f, (name, f) ∈ cfg.perturbs → ∀ s t new lpr t', P s →
    f s t = (.ok (new, lpr), t') → lpr ≠ .ninf → lpr ≠ .nan → P new
  left : ∀ a b T, P a → P (cfg.llr a b T).2.1
  right : ∀ a b T, P b → P (cfg.llr a b T).2.2
  temp : ∀ s x, P s → P (cfg.setTemp s x)

theorem closed_visited (start : S → Prop) : Closed cfg (Visited cfg start) where
  adopt := fun _ _ hf _ _ _ _ _ h hp h1 h2 => .adopt hf h hp h1 h2
  left := fun _ b T h => .left b T h
  right := fun a _ T h => .right a T h
  temp := fun _ x h => .temp x h

theorem visited_of_closed {start P : S → Prop} (hP : Closed cfg P) (h0 : ∀ s, start s → P s) {s : S}
    (h : Visited cfg start s) : P s := by
  induction h with
  | start h => exact h0 _ h
  | temp x _ ih => exact hP.temp _ x ih
  | left b T _ ih => exact hP.left _ b T ih
  | right a T _ ih => exact hP.right a _ T ih
  | adopt hf _ hp h1 h2 ih => exact hP.adopt _ _ hf _ _ _ _ _ ih hp h1 h2

theorem gtFin_add {x y : PyF} {z : ℝ} (h : (x.add y).gtFin z) : x ≠ .ninf ∧ x ≠ .nan := by
  constructor
  · rintro rfl
    cases y <;> exact h
  · rintro rfl
    cases y <;> exact h

theorem finish_cur_acc (name : String) (new : S) (lp : PyF) (c : Chain S σ E) (t : List Draw) :
    ((Chain.finish cfg name new lp c t).2.1.cur = new ∧ ∃ z, lp.gtFin z) ∨
      (Chain.finish cfg name new lp c t).2.1.cur = c.cur := by
  classical
  cases t with
  | nil => right; rfl
  | cons d t =>
    rw [finish_run]
    split
    · right; rfl
    · split
      · by_cases h : (decide (lp.gtFin (Real.log d.u))) = true
        · left; exact ⟨by simp [h], _, of_decide_eq_true h⟩
        · right; simp [h]
      · rename_i p a hn
        have : ∀ c1 : Chain S σ E, (Chain.saveIfDue cfg c1 t).2.1.cur = c1.cur := by
          intro c1; unfold Chain.saveIfDue; split <;> rfl
        have h5 := this (afterStats c new (decide (lp.gtFin (Real.log d.u))) p a)
        have h6 : ((afterStats c new (decide (lp.gtFin (Real.log d.u))) p a).cur = new ∧
            ∃ z, lp.gtFin z) ∨
            (afterStats c new (decide (lp.gtFin (Real.log d.u))) p a).cur = c.cur := by
          unfold afterStats
          by_cases h : (decide (lp.gtFin (Real.log d.u))) = true
          · left; exact ⟨by simp [h], _, of_decide_eq_true h⟩
          · right; simp [h]
        split
        · rename_i c1 t1 hs; rw [hs] at h5; simp only at h5 ⊢; rw [h5]; exact h6
        · rename_i e c1 t1 hs; rw [hs] at h5; simp only at h5 ⊢; rw [h5]; exact h6

theorem attempt_closed {P : S → Prop} (hP : Closed cfg P) :
    Act.Keeps (Chain.attempt cfg : Act (Chain S σ E) _) (fun c c' => P c.cur → P c'.cur) := by
  intro c t h
  by_cases hch : ∃ name f t1, Chosen cfg t name f t1
  · obtain ⟨name, f, t1, hch⟩ := hch
    have hmem : (name, f) ∈ cfg.perturbs := by
      obtain ⟨i, -, hi⟩ := hch
      exact List.mem_of_getElem? hi
    rw [attempt_chosen cfg hch]
    split
    · exact h
    · exact h
    · rename_i new lpr t2 hprop
      have hnew := fun h1 h2 => hP.adopt name f hmem _ _ _ _ _ h hprop h1 h2
      split
      · have := finish_cur_acc cfg name new (lpr.add (.fin 0)) c t2
        have hfin : P (Chain.finish cfg name new (lpr.add (.fin 0)) c t2).2.1.cur := by
          rcases this with ⟨e, z, hz⟩ | e
          · rw [e]; exact hnew (gtFin_add hz).1 (gtFin_add hz).2
          · rw [e]; exact h
        split
        · rename_i ev c1 t3 hs; rw [hs] at hfin; exact hfin
        · rename_i ev c1 t3 hs; rw [hs] at hfin; exact hfin
      · have hl1 := hP.left c.cur new c.temp h
        split
        · rename_i hl; rw [hl] at hl1; exact hl1
        · rename_i hl; rw [hl] at hl1; exact hl1
        · rename_i hl; rw [hl] at hl1; exact hl1
        · rename_i r cur new1 hl
          have hl2 := fun h1 h2 => hP.right c.cur new c.temp (hnew h1 h2)
          rw [hl] at hl1 hl2
          have := finish_cur_acc cfg name new1 (lpr.add r) { c with cur := cur } t2
          have hfin : P (Chain.finish cfg name new1 (lpr.add r) { c with cur := cur } t2).2.1.cur := by
            rcases this with ⟨e, z, hz⟩ | e
            · rw [e]; exact hl2 (gtFin_add hz).1 (gtFin_add hz).2
            · rw [e]; exact hl1
          split
          · rename_i ev c1 t3 hs; rw [hs] at hfin; exact hfin
          · rename_i ev c1 t3 hs; rw [hs] at hfin; exact hfin
  · obtain ⟨e, t', he⟩ := attempt_not_chosen cfg (c := c) (t := t)
      (fun name f t1 hh => hch ⟨name, f, t1, hh⟩)
    rw [he]; exact h

theorem advance_closed {P : S → Prop} (hP : Closed cfg P) {b s : ℤ}
    {bi ei : Act (Chain S σ E) Unit}
    (hbi : Act.Keeps bi (fun c c' => P c.cur → P c'.cur))
    (hei : Act.Keeps ei (fun c c' => P c.cur → P c'.cur)) (n : ℕ) :
    Act.Keeps (Chain.advance cfg b s bi ei n) (fun c c' => P c.cur → P c'.cur) :=
  advance_inv cfg (P := fun c : Chain S σ E => P c.cur) (fun _ _ h => h) hbi hei
    (next_inv cfg (attempt_closed cfg hP)) n

theorem abandoned_closed {P : S → Prop} (hP : Closed cfg P) {j : ℕ} {c c1 : Chain S σ E}
    {t t1 : List Draw} (h1 : Abandoned cfg j c t c1 t1) (hc : P c.cur) : P c1.cur := by
  induction h1 with
  | zero => exact hc
  | succ h3 _ ih => exact ih ((attempt_closed cfg hP).ok h3 hc)

/-- The state at the time of the decision, and the one afterwards. -/
theorem next_event_closed {P : S → Prop} (hP : Closed cfg P) {c c' : Chain S σ E}
    {t t' : List Draw} {ev : Event S} (h : Chain.next cfg c t = (.ok ev, c', t'))
    (hc : P c.cur) : P ev.prev ∧ P ev.result := by
  classical
  obtain ⟨j, -, c1, t1, h1, h2⟩ := (attempts_ok cfg).1 h
  have hc1 : P c1.cur := abandoned_closed cfg hP h1 hc
  rw [attempt_some] at h2
  obtain ⟨name, f, t2, new, lpr, t3, ⟨i, -, hi⟩, hp, h2⟩ := h2
  have hnew := fun e1 e2 => hP.adopt name f (List.mem_of_getElem? hi) _ _ _ _ _ hc1 hp e1 e2
  rcases h2 with ⟨-, h2⟩ | ⟨-, r, cur1, new1, hl, h2⟩
  · obtain ⟨d, -, -, rfl, -⟩ := (finish_ok cfg).1 h2
    refine ⟨hc1, ?_⟩
    unfold Event.result
    simp only
    split
    · rename_i hacc
      have hz := of_decide_eq_true hacc
      exact hnew (gtFin_add hz).1 (gtFin_add hz).2
    · exact hc1
  · obtain ⟨d, -, -, rfl, -⟩ := (finish_ok cfg).1 h2
    have hl1 := hP.left c1.cur new c1.temp hc1
    have hl2 := fun e1 e2 => hP.right c1.cur new c1.temp (hnew e1 e2)
    rw [hl] at hl1 hl2
    refine ⟨hl1, ?_⟩
    unfold Event.result
    simp only
    split
    · rename_i hacc
      have hz := of_decide_eq_true hacc
      exact hl2 (gtFin_add hz).1 (gtFin_add hz).2
    · exact hl1

theorem advance_events_closed {P : S → Prop} (hP : Closed cfg P) {b s : ℤ}
    {bi ei : Act (Chain S σ E) Unit}
    (hbi : Act.Keeps bi (fun c c' => P c.cur → P c'.cur))
    (hei : Act.Keeps ei (fun c c' => P c.cur → P c'.cur)) {n : ℕ} {c c' : Chain S σ E}
    {t t' : List Draw} {evs : List (Event S)}
    (h : Chain.advance cfg b s bi ei n c t = (.ok evs, c', t')) (hc : P c.cur) :
    EvAll P evs := by
  induction n generalizing c t evs with
  | zero =>
    rw [advance_zero] at h
    simp only [Prod.mk.injEq, Except.ok.injEq] at h
    obtain ⟨rfl, rfl, rfl⟩ := h
    intro ev hev; simp at hev
  | succ n ih =>
    rw [advance_succ_ok] at h
    obtain ⟨ev, evs', c1, t1, rfl, h1, h2⟩ := h
    obtain ⟨c2, c3, c4, t2, t3, b1, b2, b3, b4⟩ := (iteration_ok cfg).1 h1
    have e1 := ((setFlag_ok).1 b1).2.2
    have hc3 : P c3.cur := hbi.ok b2 (by rw [e1]; exact hc)
    have hev := next_event_closed cfg hP b3 hc3
    have hc4 : P c4.cur := by rw [(next_effect cfg b3).cur]; exact hev.2
    have i1 := ih h2 (hei.ok b4 hc4)
    intro e he
    rcases List.mem_cons.1 he with rfl | he
    · exact hev
    · exact i1 e he

/-! ### The samplers -/

theorem forall₂_allCur {P : S → Prop} {l l' : List (Chain S σ E)}
    (h : List.Forall₂ (fun c c' : Chain S σ E => P c.cur → P c'.cur) l l')
    (h1 : ∀ c ∈ l, P c.cur) : ∀ c ∈ l', P c.cur := by
  induction h with
  | nil => simp
  | cons hab _ ih =>
    intro c hc
    rcases List.mem_cons.1 hc with rfl | hc
    · exact hab (h1 _ (by simp))
    · exact ih (fun c hc => h1 c (by simp [hc])) c hc

theorem each_allCur {α : Type} {P : S → Prop} {par : Par} {f : Act (Chain S σ E) α}
    (hf : Act.Keeps f (fun c c' => P c.cur → P c'.cur)) :
    Act.Keeps (Samp.each par f) (fun s s' => AllCur P s → AllCur P s') := by
  intro s t h
  have := samp_each_keeps (par := par) (f := f) (R := fun c c' : Chain S σ E => P c.cur → P c'.cur)
    (fun _ h => h) (fun c w t h => hf { c with world := w } t h) s t
  exact forall₂_allCur this h

theorem each_events {P : S → Prop} {f : Act (Chain S σ E) (List (Event S))}
    {cs cs' : List (Chain S σ E)} {evs : List (List (Event S))}
    (hf : ∀ c t evs c' t', f c t = (.ok evs, c', t') → P c.cur → EvAll P evs)
    (h : Each f cs evs cs') (h1 : ∀ c ∈ cs, P c.cur) : ∀ l ∈ evs, EvAll P l := by
  induction h with
  | nil => simp
  | @cons c c' a w t t' cs cs' as hab _ ih =>
    intro l hl
    rcases List.mem_cons.1 hl with rfl | hl
    · exact hf _ _ _ _ _ hab (h1 c (by simp))
    · exact ih (fun c hc => h1 c (by simp [hc])) l hl

theorem setTemp_keeps {P : S → Prop} (hP : Closed cfg P) (c : Chain S σ E) (x : ℝ)
    (h : P c.cur) : P (c.setTemp cfg x).cur := hP.temp _ x h

theorem mem_set {α : Type} {l : List α} {i : ℕ} {a b : α} (h : b ∈ l.set i a) : b = a ∨ b ∈ l :=
  (List.mem_or_eq_of_mem_set h).symm

theorem ptSwap_allCur {P : S → Prop} (hP : Closed cfg P) (i j : ℕ) :
    Act.Keeps (ptSwap cfg i j : Act (Samp S σ E) Unit) (fun s s' => AllCur P s → AllCur P s') := by
  classical
  intro s t h
  unfold ptSwap
  match hi : s.chains[i]?, hj : s.chains[j]? with
  | none, _ => exact h
  | some c1, none => exact h
  | some c1, some c2 =>
    simp only
    have h1 : P c1.cur := h c1 (List.mem_of_getElem? hi)
    have h2 : P c2.cur := h c2 (List.mem_of_getElem? hj)
    have hl := hP.left c1.cur c2.cur c1.temp h1
    have hr := hP.right c1.cur c2.cur c1.temp h2
    generalize cfg.llr c1.cur c2.cur c1.temp = x at hl hr
    obtain ⟨r, s1, s2⟩ := x
    simp only at hl hr
    have key : ∀ d1 d2 : Chain S σ E, P d1.cur → P d2.cur →
        ∀ c ∈ (s.chains.set i d1).set j d2, P c.cur := by
      intro d1 d2 e1 e2 c hc
      rcases mem_set hc with rfl | hc
      · exact e2
      · rcases mem_set hc with rfl | hc
        · exact e1
        · exact h c hc
    unfold ptDecide
    simp only
    match r with
    | .error e => exact key _ _ hl hr
    | .ok r =>
      simp only
      split
      · exact key _ _ hl hr
      · match t with
        | [] => exact key _ _ hl hr
        | d :: t1 =>
          simp only
          split
          · exact key _ _ hl hr
          · split
            · exact key _ _ (setTemp_keeps cfg hP _ _ hl) (setTemp_keeps cfg hP _ _ hr)
            · exact key _ _ hl hr

theorem ptEndAdvance_allCur {P : S → Prop} (hP : Closed cfg P) :
    Act.Keeps (ptEndAdvance cfg : Act (Samp S σ E) Unit) (fun s s' => AllCur P s → AllCur P s') := by
  have hs : ∀ k, Act.Keeps (ptSwaps cfg k : Act (Samp S σ E) Unit)
      (fun s s' => AllCur P s → AllCur P s') := by
    intro k
    induction k with
    | zero => exact skip_keeps fun _ h => h
    | succ k ih =>
      refine Act.Keeps.bind (fun _ _ _ h1 h2 h => h2 (h1 h)) ?_ fun _ => ih
      intro s t
      rw [ptSwapRandom_run]
      match hp : pickTwo s.chains.length t with
      | (.error e, t1) => exact fun h => h
      | (.ok (i, j), t1) => exact ptSwap_allCur cfg hP i j s t1
  intro s t
  exact hs s.chains.length s t

theorem assignTemps_allCur {P : S → Prop} (hP : Closed cfg P) {cs cs' : List (Chain S σ E)}
    {ts : List ℝ} (h : assignTemps cfg cs ts = .ok cs') (h1 : ∀ c ∈ cs, P c.cur) :
    ∀ c ∈ cs', P c.cur := by
  induction cs generalizing ts cs' with
  | nil =>
    cases ts <;>
    · rw [assignTemps] at h
      injection h with h
      subst h
      simp
  | cons c cs ih =>
    cases ts with
    | nil => rw [assignTemps] at h; simp at h
    | cons x xs =>
      rw [assignTemps] at h
      match hr : assignTemps cfg cs xs with
      | .error e => rw [hr] at h; simp at h
      | .ok cs1 =>
        rw [hr] at h
        injection h with h
        subst h
        intro d hd
        rcases List.mem_cons.1 hd with rfl | hd
        · exact setTemp_keeps cfg hP _ _ (h1 _ (by simp))
        · exact ih hr (fun c hc => h1 c (by simp [hc])) d hd

theorem ptInit_allCur {P : S → Prop} (hP : Closed cfg P) (fr tmax : ℝ) :
    Act.Keeps (ptInit cfg fr tmax : Act (Samp S σ E) Unit) (fun s s' => AllCur P s → AllCur P s') := by
  intro s t h
  unfold ptInit
  split
  · exact h
  · split
    · exact h
    · rename_i cs hcs
      exact assignTemps_allCur cfg hP hcs h

theorem saInit_allCur {P : S → Prop} (hP : Closed cfg P) (T0 : ℝ) :
    Act.Keeps (saInit cfg T0 : Act (Samp S σ E) Unit) (fun s s' => AllCur P s → AllCur P s') := by
  intro s t h c hc
  obtain ⟨c0, h0, rfl⟩ := List.mem_map.1 hc
  exact setTemp_keeps cfg hP _ _ (h c0 h0)

theorem saBegin_closed {P : S → Prop} (hP : Closed cfg P) (T0 rate : ℝ) (b : ℤ) :
    Act.Keeps (saBegin cfg T0 rate b : Act (Chain S σ E) Unit) (fun c c' => P c.cur → P c'.cur) := by
  intro c t h
  show P (ite _ _ _ : Chain S σ E).cur
  split
  · exact setTemp_keeps cfg hP _ _ h
  · split
    · exact setTemp_keeps cfg hP _ _ h
    · exact h

/-- The hooks of a sampler keep `P`. -/
structure DefKeeps (P : S → Prop) (d : SamplerDef S σ E) : Prop where
  init : Act.Keeps d.initialize (fun s s' => AllCur P s → AllCur P s')
  begin_ : Act.Keeps d.beginIteration (fun c c' => P c.cur → P c'.cur)
  end_ : Act.Keeps d.endIteration (fun c c' => P c.cur → P c'.cur)
  endAdvance : Act.Keeps d.onEndAdvance (fun s s' => AllCur P s → AllCur P s')

theorem defKeeps_of {P : S → Prop} {d d' : SamplerDef S σ E} (hd : HooksKeep P d)
    (e1 : d'.extraInit = d.extraInit) (e2 : d'.extraBegin = d.extraBegin)
    (e3 : d'.extraEnd = d.extraEnd)
    (h1 : Act.Keeps d'.onInit (fun s s' => AllCur P s → AllCur P s'))
    (h2 : Act.Keeps d'.onBegin (fun c c' => P c.cur → P c'.cur))
    (h3 : Act.Keeps d'.onEnd (fun c c' => P c.cur → P c'.cur))
    (h4 : Act.Keeps d'.onEndAdvance (fun s s' => AllCur P s → AllCur P s')) : DefKeeps P d' where
  init := Act.Keeps.bind (fun _ _ _ h1 h2 h => h2 (h1 h)) h1 fun _ =>
    runAll_keeps (fun _ h => h) (fun _ _ _ h1 h2 h => h2 (h1 h)) (by rw [e1]; exact hd.init)
  begin_ := Act.Keeps.bind (fun _ _ _ h1 h2 h => h2 (h1 h)) h2 fun _ =>
    runAll_keeps (fun _ h => h) (fun _ _ _ h1 h2 h => h2 (h1 h)) (by rw [e2]; exact hd.begin_)
  end_ := Act.Keeps.bind (fun _ _ _ h1 h2 h => h2 (h1 h)) h3 fun _ =>
    runAll_keeps (fun _ h => h) (fun _ _ _ h1 h2 h => h2 (h1 h)) (by rw [e3]; exact hd.end_)
  endAdvance := h4

theorem vanilla_defKeeps {P : S → Prop} {d : SamplerDef S σ E} (hd : HooksKeep P d) :
    DefKeeps P (vanilla d) :=
  defKeeps_of hd rfl rfl rfl (skip_keeps fun _ h => h) (skip_keeps fun _ h => h)
    (skip_keeps fun _ h => h) (skip_keeps fun _ h => h)

theorem tempering_defKeeps {P : S → Prop} (hP : Closed cfg P) {d : SamplerDef S σ E}
    (hd : HooksKeep P d) (fr tmax : ℝ) : DefKeeps P (tempering cfg fr tmax d) :=
  defKeeps_of hd rfl rfl rfl (ptInit_allCur cfg hP fr tmax) (skip_keeps fun _ h => h)
    (skip_keeps fun _ h => h) (ptEndAdvance_allCur cfg hP)

theorem annealing_defKeeps {P : S → Prop} (hP : Closed cfg P) {d : SamplerDef S σ E}
    (hd : HooksKeep P d) (T0 rate : ℝ) (b : ℤ) : DefKeeps P (annealing cfg T0 rate b d) :=
  defKeeps_of hd rfl rfl rfl (saInit_allCur cfg hP T0) (saBegin_closed cfg hP T0 rate b)
    (skip_keeps fun _ h => h) (skip_keeps fun _ h => h)

theorem advanceChain_allCur {P : S → Prop} (hP : Closed cfg P) {d : SamplerDef S σ E}
    (hd : DefKeeps P d) (par : Par) (n b sv : ℤ) :
    Act.Keeps (d.advanceChain cfg par n b sv) (fun s s' => AllCur P s → AllCur P s') :=
  advanceChain_keeps cfg (fun _ _ _ h1 h2 h => h2 (h1 h)) (fun _ h => h)
    (each_allCur (advance_closed cfg hP hd.begin_ hd.end_ _)) hd.endAdvance

theorem advanceChain_events {P : S → Prop} (hP : Closed cfg P) {d : SamplerDef S σ E}
    (hd : DefKeeps P d) {par : Par} {n b sv : ℤ} {s s' : Samp S σ E} {t t' : List Draw}
    {evs : List (List (Event S))} (h : d.advanceChain cfg par n b sv s t = (.ok evs, s', t'))
    (h0 : AllCur P s) : ∀ l ∈ evs, EvAll P l := by
  obtain ⟨s1, t1, h1, -⟩ := advanceChain_ok.1 h
  exact each_events (fun c t evs c' t' hh hc =>
    advance_events_closed cfg hP hd.begin_ hd.end_ hh hc) (samp_each h1) h0

theorem joinEvents_all {P : S → Prop} {a b : List (List (Event S))} (ha : ∀ l ∈ a, EvAll P l)
    (hb : ∀ l ∈ b, EvAll P l) : ∀ l ∈ joinEvents a b, EvAll P l := by
  unfold joinEvents
  induction a generalizing b with
  | nil => simp
  | cons x a ih =>
    cases b with
    | nil => simp
    | cons y b =>
      intro l hl
      rw [List.zipWith_cons_cons] at hl
      rcases List.mem_cons.1 hl with rfl | hl
      · intro ev hev
        rcases List.mem_append.1 hev with h | h
        · exact ha x (by simp) ev h
        · exact hb y (by simp) ev h
      · exact ih (fun l h => ha l (by simp [h])) (fun l h => hb l (by simp [h])) l hl

theorem ptRun_allCur {P : S → Prop} (hP : Closed cfg P) {d : SamplerDef S σ E}
    (hd : DefKeeps P d) (par : Par) (sw n b sv : ℤ) (fuel : ℕ) :
    Act.Keeps (ptRun cfg par d sw n b sv fuel) (fun s s' => AllCur P s → AllCur P s') :=
  ptRun_keeps cfg (fun _ h => h) (fun _ _ _ h1 h2 h => h2 (h1 h))
    (fun k b => advanceChain_allCur cfg hP hd par k b sv) fuel

theorem ptRun_events {P : S → Prop} (hP : Closed cfg P) {d : SamplerDef S σ E}
    (hd : DefKeeps P d) {par : Par} {sw n b sv : ℤ} {fuel : ℕ} {s s' : Samp S σ E}
    {t t' : List Draw} {evs : List (List (Event S))}
    (h : ptRun cfg par d sw n b sv fuel s t = (.ok (some evs), s', t')) (h0 : AllCur P s) :
    ∀ l ∈ evs, EvAll P l := by
  induction fuel generalizing s t evs s' t' with
  | zero => simp [ptRun] at h
  | succ fuel ih =>
    rw [ptRun_succ] at h
    match hc : s.chains.head? with
    | none => rw [hc] at h; simp at h
    | some c0 =>
      rw [hc] at h
      simp only at h
      match ha : d.advanceChain cfg par (ptIterations sw n c0.total) (ptBurnin sw b c0.total) sv s t with
      | (.error e, s1, t1) => rw [ha] at h; simp at h
      | (.ok evs1, s1, t1) =>
        rw [ha] at h
        simp only at h
        have g1 := advanceChain_events cfg hP hd ha h0
        split at h
        · simp only [Prod.mk.injEq, Except.ok.injEq, Option.some.injEq] at h
          rw [← h.1]
          exact g1
        · match hr : ptRun cfg par d sw n b sv fuel s1 t1 with
          | (.error e, s2, t2) => rw [hr] at h; simp at h
          | (.ok none, s2, t2) => rw [hr] at h; simp at h
          | (.ok (some evs'), s2, t2) =>
            rw [hr] at h
            simp only [Prod.mk.injEq, Except.ok.injEq, Option.some.injEq] at h
            rw [← h.1]
            exact joinEvents_all g1 (ih hr ((advanceChain_allCur cfg hP hd par _ _ _).ok ha h0))

end BB.Lemmas
