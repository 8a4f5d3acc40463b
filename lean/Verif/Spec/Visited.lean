import Verif.Model.Samplers

/-!
# Specification: the states that a chain can visit

The least set that contains the starting states and is closed under everything that can happen to the current
state of a chain: the adoption of a proposal, the assignment of a temperature, and the evaluation of the
likelihood together with another state (which may fill the cache).

A proposal whose reported log ratio is minus infinity or not a number is never adopted (C02), so these are
left out.
-/

namespace BB.Spec

variable {S σ E : Type}

inductive Visited (cfg : ChainCfg S σ) (start : S → Prop) : S → Prop
  | start {s : S} (h : start s) : Visited cfg start s
  | temp {s : S} (x : ℝ) (h : Visited cfg start s) : Visited cfg start (cfg.setTemp s x)
  | left {a : S} (b : S) (T : ℝ) (h : Visited cfg start a) : Visited cfg start (cfg.llr a b T).2.1
  | right {b : S} (a : S) (T : ℝ) (h : Visited cfg start b) : Visited cfg start (cfg.llr a b T).2.2
  | adopt {s new : S} {name : String} {f : S → M (S × PyF)} {t t' : List Draw} {lpr : PyF}
      (hf : (name, f) ∈ cfg.perturbs) (h : Visited cfg start s)
      (hp : f s t = (.ok (new, lpr), t')) (h1 : lpr ≠ .ninf) (h2 : lpr ≠ .nan) :
      Visited cfg start new

/-- The states recorded in a list of iterations (the one before each decision and the one after it) satisfy `P`. -/
def EvAll (P : S → Prop) (evs : List (Event S)) : Prop :=
  ∀ ev ∈ evs, P ev.prev ∧ P (if ev.acc then ev.new else ev.prev)

/-- The current states of all chains satisfy `P`. -/
def AllCur (P : S → Prop) (s : Samp S σ E) : Prop := ∀ c ∈ s.chains, P c.cur

/-- The functions registered by the user keep `P` of the current states (for instance because they do not
modify the chains). -/
structure HooksKeep (P : S → Prop) (d : SamplerDef S σ E) : Prop where
  init : ∀ f ∈ d.extraInit, ∀ s t, AllCur P s → AllCur P (f s t).2.1
  begin_ : ∀ f ∈ d.extraBegin, ∀ c t, P c.cur → P (f c t).2.1.cur
  end_ : ∀ f ∈ d.extraEnd, ∀ c t, P c.cur → P (f c t).2.1.cur

end BB.Spec
