import Verif.Lemmas.Neighbour
import Verif.Lemmas.NearCenter
import Verif.Lemmas.PlainSample
import Verif.Props.C18_C19_ValuePerturbation
import Verif.Props.C23_BirthDeathBalance

/-!
# Runs of births from the nearest neighbour and of the deaths that undo them
-/

namespace BB.Lemmas

open BB BB.Spec BB.Props MeasureTheory ProbabilityTheory

/-! ### one value -/

theorem HasDensity.log {P : Type} [MeasurableSpace P] {pr : Prior} {loc : P → Pos} {dom : Set P} {dens : P → ℝ → ℝ}
    (h : HasDensity pr loc dom dens) {x : P} (hx : x ∈ dom) (v : ℝ) : pr.logPrior v (loc x) = .ok (logOf (dens x v)) := by
  unfold HasDensity at h
  cases hd : pr.dist with
  | uniform vmin vmax =>
    rw [hd] at h
    obtain ⟨a, b, -, -, h1, rfl⟩ := h
    exact C18_log_prior_uniform pr vmin vmax hd _ _ _ (h1 x hx).1 (h1 x hx).2.1 (h1 x hx).2.2 v
  | gaussian mean std =>
    rw [hd] at h
    obtain ⟨a, b, -, -, h1, rfl⟩ := h
    exact C18_log_prior_gaussian pr mean std hd _ _ _ (h1 x hx).1 (h1 x hx).2.1 (h1 x hx).2.2 v
  | laplace mean scale =>
    rw [hd] at h
    obtain ⟨a, b, -, -, h1, rfl⟩ := h
    exact C18_log_prior_laplace pr mean scale hd _ _ _ (h1 x hx).1 (h1 x hx).2.1 (h1 x hx).2.2 v
  | custom log f sample =>
    rw [hd] at h
    unfold Prior.logPrior
    rw [hd]
    simp only [h.2.1 x hx v]

/-- A draw of a normal deviate. -/
def normalDraw (z : ℝ) : Draw := ⟨0, z, 0, by norm_num⟩

theorem normalPDF_pos' {m s : ℝ} (hs : 0 < s) (x : ℝ) : 0 < normalPDF m s x :=
  gaussianPDFReal_pos _ _ _ (by simpa using hs.ne')

theorem logOf_div {a b : ℝ} (hb : 0 < b) : (logOf a).sub (.fin (Real.log b)) = logOf (max a 0 / b) := by
  unfold logOf
  by_cases ha : 0 < a
  · rw [if_pos ha, max_eq_left ha.le, if_pos (div_pos ha hb), Real.log_div ha.ne' hb.ne']
    rfl
  · rw [if_neg ha, max_eq_right (not_lt.1 ha), zero_div, if_neg (lt_irrefl _)]
    rfl

theorem perturbValue_birth {P : Type} [MeasurableSpace P] {pr : Prior} {loc : P → Pos} {dom : Set P} {dens : P → ℝ → ℝ}
    (h : HasDensity pr loc dom dens) {x : P} (hx : x ∈ dom) {std : ℝ} (hs : pr.stdBirth.get (loc x) = .ok std)
    (nb z : ℝ) (rest : List Draw) :
    ∃ r, pr.perturbValue nb (loc x) true (normalDraw z :: rest) = (.ok (nb + z * std, r), rest) := by
  have hlog := HasDensity.log h hx
  have hst : pr.getStd true (loc x) = .ok std := hs
  have hz : (0 : ℝ) + (normalDraw z).z * std = z * std := zero_add _
  unfold HasDensity at h
  unfold Prior.perturbValue
  cases hd : pr.dist with
  | uniform vmin vmax =>
    rw [hd] at h
    obtain ⟨a, b, -, -, h1, -⟩ := h
    simp only [hst, (h1 x hx).1, (h1 x hx).2.1]
    constructor
    refine (M.bind_of rfl).trans ((M.bind_of rfl).trans ((M.bind_of rfl).trans
      ((M.bind_of (M.normalvariate_run _ _ _ _)).trans ?_)))
    rw [hz]
    rfl
  | gaussian mean sd =>
    rw [hd] at h
    obtain ⟨a, b, -, -, h1, -⟩ := h
    simp only [hst, (h1 x hx).1, (h1 x hx).2.1]
    have hne : ¬ 2 * b x ^ 2 = 0 := by
      have := (h1 x hx).2.2
      positivity
    constructor
    refine (M.bind_of rfl).trans ((M.bind_of (M.normalvariate_run _ _ _ _)).trans ((M.bind_of rfl).trans
      ((M.bind_of rfl).trans ?_)))
    rw [if_neg hne, hz]
    rfl
  | laplace mean scale =>
    rw [hd] at h
    obtain ⟨a, b, -, -, h1, -⟩ := h
    simp only [hst, (h1 x hx).1, (h1 x hx).2.1]
    constructor
    refine (M.bind_of rfl).trans ((M.bind_of (M.normalvariate_run _ _ _ _)).trans ((M.bind_of rfl).trans
      ((M.bind_of rfl).trans ?_)))
    rw [if_neg (h1 x hx).2.2.ne', hz]
    rfl
  | custom log f sample =>
    simp only [hst, if_true, hlog]
    constructor
    refine (M.bind_of rfl).trans ((M.bind_of (M.normalvariate_run _ _ _ _)).trans ((M.bind_of rfl).trans
      ((M.bind_of rfl).trans ?_)))
    rw [hz]
    rfl

theorem fromNeighbour_run {P : Type} [MeasurableSpace P] {pr : Prior} {loc : P → Pos} {dom : Set P} {dens : P → ℝ → ℝ}
    (h : HasDensity pr loc dom dens) {x : P} (hx : x ∈ dom) {std : ℝ} (hs : pr.stdBirth.get (loc x) = .ok std)
    (hpos : 0 < std) (nb z : ℝ) (rest : List Draw) : pr.fromNeighbour nb (loc x) (normalDraw z :: rest) =
      (.ok (nb + z * std, logOf (max (dens x (nb + z * std)) 0 / normalPDF nb std (nb + z * std))), rest) := by
  have hst : pr.getStd true (loc x) = .ok std := hs
  obtain ⟨r, hr⟩ := perturbValue_birth h hx hs nb z rest
  have hg : negLogGauss std (nb + z * std) nb = .ok (-Real.log (normalPDF nb std (nb + z * std))) :=
    negLogGauss_ok.2 ⟨hpos, rfl⟩
  unfold Prior.fromNeighbour
  refine (M.bind_of hr).trans ?_
  simp only [hst, HasDensity.log h hx]
  refine (M.bind_of rfl).trans ((M.bind_of rfl).trans ?_)
  rw [hg]
  refine (M.bind_of rfl).trans ?_
  rw [← logOf_div (normalPDF_pos' hpos _)]
  rfl

/-! ### all values -/

theorem newbornFromNeighbour_run (old : PSState) (inear : ℕ) (pos : Pos) : ∀ (ws : List (Col × ℝ)) (acc : ℝ), 0 ≤ acc →
    (∀ w ∈ ws, 0 ≤ w.2 ∧ ∃ nb, numAt (old.get w.1.prior.name) inear = .ok nb ∧
      ∀ rest, w.1.prior.fromNeighbour nb pos (w.1.draw :: rest) = (.ok (w.1.new, logOf w.2), rest)) → ∀ rest,
    newbornFromNeighbour old inear pos (ws.map fun w => (w.1.prior.name, Param.prior w.1.prior)) (logOf acc)
        (ws.map (fun w => w.1.draw) ++ rest) =
      (.ok (ws.map (fun w => (w.1.prior.name, NVal.num w.1.new)), logOf (acc * (ws.map Prod.snd).prod)), rest)
  | [], acc, _, _, rest => by
    rw [List.map_nil, List.map_nil, List.map_nil, List.map_nil, List.prod_nil, mul_one]
    rfl
  | w :: ws, acc, ha, h, rest => by
    obtain ⟨h0, nb, h1, h2⟩ := h w (List.mem_cons_self ..)
    have ih := newbornFromNeighbour_run old inear pos ws (acc * w.2) (mul_nonneg ha h0)
      (fun w hw => h w (List.mem_cons_of_mem _ hw)) rest
    rw [List.map_cons, List.map_cons, List.cons_append, newbornFromNeighbour.eq_def]
    simp only [h1]
    refine (M.bind_of (a := (NVal.num w.1.new, logOf (acc * w.2))) (t1 := ws.map (fun w => w.1.draw) ++ rest) ?_).trans ?_
    · refine (M.bind_of rfl).trans ((M.bind_of (h2 _)).trans ?_)
      rw [logOf_mul ha h0]
      rfl
    · refine (M.bind_of ih).trans ?_
      rw [List.map_cons, List.map_cons, List.prod_cons, mul_assoc]
      rfl

theorem pointRatio_of {near : Near} {old new : PSState} {i j : ℕ} {pos : Pos} : ∀ {ps : ParamList} {ws : List (Prior × ℝ)},
    ps.toList = ws.map (fun w => (w.1.name, Param.prior w.1)) →
    (∀ w ∈ ws, 0 ≤ w.2 ∧ ∃ x nb std lp, Num (new.get w.1.name) i x ∧ Num (old.get w.1.name) j nb ∧
      w.1.stdBirth.get pos = .ok std ∧ 0 < std ∧ w.1.logPrior x pos = .ok lp ∧
      logOf w.2 = lp.sub (.fin (Real.log (normalPDF nb std x)))) →
    PointRatio near ps old new i j pos (logOf (ws.map Prod.snd).prod)
  | .nil, [], _, _ => by
    rw [PointRatio, List.map_nil, List.prod_nil, logOf_one]
  | .nil, w :: ws, h, _ => by
    rw [ParamList.toList] at h
    cases h
  | .cons name p rest, [], h, _ => by
    rw [ParamList.toList] at h
    cases h
  | .cons name p rest, w :: ws, h, hw => by
    rw [ParamList.toList, List.map_cons] at h
    injection h with h1 h2
    injection h1 with h3 h4
    subst h3 h4
    rw [PointRatio]
    obtain ⟨h0, x, nb, std, lp, e1, e2, e3, e4, e5, e6⟩ := hw w (List.mem_cons_self ..)
    have hr : 0 ≤ (ws.map Prod.snd).prod := by
      refine List.prod_nonneg fun a ha => ?_
      obtain ⟨w', hw', rfl⟩ := List.mem_map.1 ha
      exact (hw w' (List.mem_cons_of_mem _ hw')).1
    refine ⟨logOf w.2, logOf (ws.map Prod.snd).prod, ?_, pointRatio_of h2 fun w hw' => hw w (List.mem_cons_of_mem _ hw'), ?_⟩
    · rw [ParamRatio]
      exact ⟨x, nb, std, lp, e1, e2, e3, e4, e5, e6⟩
    · rw [List.map_cons, List.prod_cons, logOf_mul h0 hr]

/-! ### births and deaths -/

section moves

variable {sp : Space} {s : PSState} {cs : List Col}

theorem vorBirth_line_of {v : Vor1} (hk : sp.info.kind = .vor1 v)
    (hnd : ("discretization" :: cs.map fun c => c.prior.name).Nodup) {xs : List ℝ}
    (hv : s.vals = ("discretization", .arr (.vec xs)) :: cs.map Col.old) (hx : xs.length = s.n)
    (hl : ∀ c ∈ cs, c.col.length = s.n) (d : Draw) {lpr : PyF} {ds : List Draw}
    (hs : ∀ rest, sp.newborn (.one (v.vmin + (v.vmax - v.vmin) * d.u)) s (ds ++ rest) =
      (.ok (cs.map fun c => (c.prior.name, NVal.num c.new), lpr), rest)) {i : ℕ}
    (hid : i = bisectLeft xs (v.vmin + (v.vmax - v.vmin) * d.u) 0 xs.length) (rest : List Draw) :
    vorBirth sp s (d :: (ds ++ rest)) =
      (.ok (.mk (s.n + 1) (("discretization", .arr (.vec (listInsert xs i (v.vmin + (v.vmax - v.vmin) * d.u)))) ::
        cs.map (Col.ins i)) none, lpr), rest) := by
  set x := v.vmin + (v.vmax - v.vmin) * d.u with hxd
  have hi : i ≤ s.n := by rw [← hx, hid]; exact bisectLeft_le _ _ _ _ (Nat.zero_le _)
  obtain ⟨g1, g2⟩ := get_col hv hnd
  unfold vorBirth
  rw [hk]
  simp only
  refine (M.bind_of (M.uniform_run _ _ d _)).trans ?_
  refine (M.bind_of (hs rest)).trans ?_
  simp only [g1]
  rw [← hxd, ← hid, insert1d_ok (by rw [hx]; exact hi)]
  refine (M.bind_of rfl).trans ?_
  rw [addNewborn_run (i := i) (by simpa [dkeys] using hnd) fun c hc => by
    rw [g2 c hc]
    exact insertAt_num (by rw [hl c hc]; exact hi) _]
  refine (M.bind_of rfl).trans ?_
  rw [List.singleton_append, mkPS_arrays]
  · rfl
  · intro kv hkv
    rcases List.mem_cons.1 hkv with rfl | hkv
    · refine ⟨?_, _, rfl⟩
      change (listInsert xs i x).length = s.n + 1
      rw [listInsert_length (by rw [hx]; exact hi), hx]
    · exact ins_arrays hl hi kv hkv

theorem vorBirth_plane_of {v : Vor2} (hk : sp.info.kind = .vor2 v)
    (hnd : ("discretization" :: cs.map fun c => c.prior.name).Nodup) {ps : List (ℝ × ℝ)}
    (hv : s.vals = ("discretization", .arr (.pts ps)) :: cs.map Col.old) (hx : ps.length = s.n)
    (hl : ∀ c ∈ cs, c.col.length = s.n) (ds ds' : List Draw) (q : ℝ × ℝ)
    (hq : ∀ rest, v.sampleSite (ds ++ rest) = (.ok q, rest)) {lpr : PyF}
    (hs : ∀ rest, sp.newborn (.two q) s (ds' ++ rest) =
      (.ok (cs.map fun c => (c.prior.name, NVal.num c.new), lpr), rest))
    (rest : List Draw) : vorBirth sp s (ds ++ (ds' ++ rest)) =
      (.ok (.mk (s.n + 1) (("discretization", .arr (.pts (listInsert ps s.n q))) ::
        cs.map (Col.ins s.n)) none, lpr), rest) := by
  obtain ⟨g1, g2⟩ := get_col hv hnd
  have e : listInsert ps s.n q = ps ++ [q] := by rw [← hx, listInsert_end]
  unfold vorBirth
  rw [hk]
  simp only
  refine (M.bind_of (hq _)).trans ?_
  refine (M.bind_of (hs rest)).trans ?_
  simp only [g1]
  rw [addNewborn_run (i := s.n) (by simpa [dkeys] using hnd) fun c hc => by
    rw [g2 c hc]
    exact append_num (hl c hc).symm _]
  refine (M.bind_of rfl).trans ?_
  rw [List.singleton_append, mkPS_arrays, e]
  · rfl
  · intro kv hkv
    rcases List.mem_cons.1 hkv with rfl | hkv
    · refine ⟨?_, _, rfl⟩
      change (ps ++ [q]).length = s.n + 1
      rw [List.length_append, hx]
      rfl
    · exact ins_arrays hl le_rfl kv hkv

theorem vorDeath_of {v0 v0' : PVal} {m : ℕ}
    (hv : s.vals = ("discretization", v0) :: cs.map Col.old) (hl : ∀ c ∈ cs, c.col.length = s.n) (h0 : s.n ≠ 0) (d : Draw)
    (hm : d.n % s.n = m) (hd : delOp sp.info.kind m v0 = .ok v0') (hlen : v0'.len = s.n - 1) (harr : ∃ a, v0' = .arr a)
    {lpr : PyF} (hr : sp.deathRatio s (.mk (s.n - 1) (("discretization", v0') :: cs.map (Col.del m)) none) m = .ok lpr)
    (rest : List Draw) : vorDeath sp s (d :: rest) =
      (.ok (.mk (s.n - 1) (("discretization", v0') :: cs.map (Col.del m)) none, lpr), rest) := by
  subst hm
  have hi : d.n % s.n < s.n := Nat.mod_lt _ (Nat.pos_of_ne_zero h0)
  unfold vorDeath
  refine (M.bind_of (M.randIdx_run h0 d _)).trans ?_
  have h1 : mapVals (delOp sp.info.kind (d.n % s.n)) s.vals =
      .ok (("discretization", v0') :: cs.map (Col.del (d.n % s.n))) := by
    rw [hv]
    exact mapVals_cons hd (mapVals_run fun c hc => delOp_num (k := sp.info.kind) (by rw [hl c hc]; exact hi))
  refine (M.bind_of ((congrArg (fun z => M.lift z rest) h1).trans rfl)).trans ?_
  rw [mkPS_arrays]
  · refine (M.bind_of rfl).trans ?_
    rw [hr]
    rfl
  · intro kv hkv
    rcases List.mem_cons.1 hkv with rfl | hkv
    · exact ⟨hlen, harr⟩
    · exact del_arrays hl hi kv hkv

end moves

end BB.Lemmas
