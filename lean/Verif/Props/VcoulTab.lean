import Verif.Model.VcoulTab
import Verif.Props.VcoulMC
import Verif.Props.GWEps

/-!
# Property C222: the table of Coulomb values
-/

namespace Verif.Vcoul

open Verif
open Verif.GSpace (GVec)

/-! ## Specification -/

/-- The wave vector `q + G`, Cartesian. -/
noncomputable def qPlusG (T : TabIn) (iq : ℕ) (g : GVec) : E3 := cart T.toInp (T.qs.getD iq 0 + crystG g)

/-- What the documentation of the class says of `avgcut`: an average below it, the bare value above. -/
noncomputable def documented (T : TabIn) (avgcut : ℝ) (average : Val) (iq : ℕ) (g : GVec) (v : Val) : Prop :=
  if ‖qPlusG T iq g‖ ^ 2 < avgcut then v = average else v = .num (8 * Real.pi / ‖qPlusG T iq g‖ ^ 2)

/-! ## Lemmas -/

theorem mapM_get {α β ε : Type*} (f : α → Except ε β) : ∀ (l : List α) (r : List β), l.mapM f = .ok r →
    r.length = l.length ∧ ∀ (i : ℕ) (a : α), l[i]? = some a → ∃ b, f a = .ok b ∧ r[i]? = some b
  | [], r, h => by
    simp only [List.mapM_nil, pure, Except.pure, Except.ok.injEq] at h
    subst h
    exact ⟨rfl, fun i a h => by simp at h⟩
  | a :: l, r, h => by
    rw [List.mapM_cons] at h
    cases ha : f a with
    | error e => simp [ha, bind, Except.bind] at h
    | ok b =>
      cases hl : l.mapM f with
      | error e => simp [ha, hl, bind, Except.bind] at h
      | ok bs =>
        simp only [ha, hl, bind, Except.bind, pure, Except.pure, Except.ok.injEq] at h
        subst h
        obtain ⟨h1, h2⟩ := mapM_get f l bs hl
        refine ⟨by simp [h1], fun i x hx => ?_⟩
        rcases i with _ | i
        · simp only [List.getElem?_cons_zero, Option.some.injEq] at hx
          subst hx
          exact ⟨b, ha, rfl⟩
        · simp only [List.getElem?_cons_succ] at hx ⊢
          exact h2 i x hx

theorem mean_full (cellvol : ℝ) (nq : ℕ) (Q : ℝ) (ns : ℕ) (pts : ℕ → E3) : meanZero cellvol nq Q ns ns pts = combineZero cellvol nq Q ns pts := rfl

theorem shift_full (v : Option ℝ) (s : E3) (ns : ℕ) (pts : ℕ → E3) :
    meanShift (.ofOption v) s ns ns pts = .ofOption (combineShift v s ns pts).1 := by
  cases v <;> rfl

theorem taken_le (ns : ℕ) (h : ns ≤ drawnSamples) : taken ns = ns := min_eq_left h

theorem nShift_le (c : Cfg) (hc : 1 ≤ c.nSamples) (Q len : ℝ) : 1 ≤ nShift c Q len ∧ nShift c Q len ≤ c.nSamples := by
  unfold nShift
  omega

/-- **C222 (processes).** The table does not depend on the number of processes, with any choice of the options. -/
theorem C222_processes (T : TabIn) (c : Cfg) (raw : ℕ → ℕ) (near : List E3 → E3 → E3) (o : Opts) (size : ℕ) (hs : 0 < size) :
    table T c raw near o (some size) = table T c raw near o none :=
  congrArg (List.mapM id) (GW.C55_vcoul _ _ hs _)

theorem table_get (T : TabIn) (c : Cfg) (raw : ℕ → ℕ) (near : List E3 → E3 → E3) (o : Opts) (size : Option ℕ) (hs : ∀ s, size = some s → 0 < s) (t : List (List Val × Val))
    (ht : table T c raw near o size = .ok t) : t.length = T.qs.length ∧ ∀ iq < T.qs.length, ∃ p, single T c raw near o iq = .ok p ∧ t[iq]? = some p := by
  have h : ((List.range T.qs.length).map (single T c raw near o)).mapM id = .ok t := by
    cases size with
    | none => exact ht
    | some s =>
      rw [C222_processes T c raw near o s (hs s rfl)] at ht
      exact ht
  obtain ⟨h1, h2⟩ := mapM_get id _ t h
  refine ⟨by simpa using h1, fun iq hq => ?_⟩
  obtain ⟨b, hb, hb'⟩ := h2 iq (single T c raw near o iq) (by simp [hq])
  exact ⟨b, hb, hb'⟩

theorem nbhd_ok (I : Inp) (q : Fin 3 → ℝ) (hq : q ∈ fullQ I) (h : 1 / 100000 < ‖cart I q‖ ^ 2) : ∃ Q nb, gammaNbhd I = .ok (Q, nb) := by
  classical
  unfold gammaNbhd
  simp only
  cases hm : (((fullQ I).map fun q => ‖cart I q‖ ^ 2).filter fun x => decide (1 / 100000 < x)).min? with
  | some m => exact ⟨_, _, rfl⟩
  | none =>
    rw [List.min?_eq_none_iff] at hm
    have : ‖cart I q‖ ^ 2 ∈ ((fullQ I).map fun q => ‖cart I q‖ ^ 2).filter fun x => decide (1 / 100000 < x) :=
      List.mem_filter.2 ⟨List.mem_map.2 ⟨q, hq, rfl⟩, decide_eq_true h⟩
    rw [hm] at this
    cases this

/-! ## The property -/

/-- **C222 (defined).** Whenever there is an image of a q-point away from zero, a table is computed, whatever the options. -/
theorem C222_defined (T : TabIn) (q : Fin 3 → ℝ) (hq : q ∈ fullQ T.toInp) (hl : 1 / 100000 < ‖cart T.toInp q‖ ^ 2) (c : Cfg) (raw : ℕ → ℕ) (near : List E3 → E3 → E3) (o : Opts) (size : Option ℕ)
    (hs : ∀ s, size = some s → 0 < s) : ∃ t, table T c raw near o size = .ok t := by
  classical
  obtain ⟨Q, nb, hN⟩ := nbhd_ok T.toInp q hq hl
  have h1 : ∀ iq, ∃ p, single T c raw near o iq = .ok p := by
    intro iq
    unfold single
    by_cases hb : o.bare = true
    · rw [if_pos hb]
      exact ⟨_, rfl⟩
    · rw [if_neg hb]
      have hv : ∀ g : GVec, ∃ b, (if o.randomAvg then hybridV T.toInp c raw near (T.qvec iq + crystG g)
          else .ok (sphereAt (qCutoff T.recvol T.qs.length) ‖cart T.toInp (T.qvec iq + crystG g)‖) : Except PyErr Val) = .ok b := by
        intro g
        by_cases hr : o.randomAvg = true
        · rw [if_pos hr]
          unfold hybridV
          rw [hN]
          simp only
          split <;> exact ⟨_, rfl⟩
        · rw [if_neg hr]
          exact ⟨_, rfl⟩
      choose F hF using hv
      have hw : ∃ r, oneoverqMC T.toInp c raw near (T.qvec iq) = .ok r := by
        unfold oneoverqMC
        rw [hN]
        exact ⟨_, rfl⟩
      obtain ⟨r, hr⟩ := hw
      rw [GW.mapM_ok _ _ F fun g _ => hF g]
      simp only [bind, Except.bind, pure, Except.pure, hr]
      exact ⟨_, rfl⟩
  choose G hG using h1
  have h2 : table T c raw near o size = table T c raw near o none := by
    cases size with
    | none => rfl
    | some s => exact C222_processes T c raw near _ s (hs s rfl)
  rw [h2]
  show ∃ t, ((List.range T.qs.length).map (single T c raw near o)).mapM id = .ok t
  rw [List.mapM_map]
  exact ⟨_, GW.mapM_ok _ _ G fun iq _ => hG iq⟩


/-- **C222 (bare values).** With `bare=True` the table has, for every q-point and G-vector, the entry `8π/|q + G|²`, NaN where `q + G = 0`; serially and on any number of processes. The second table has `8π/|q|`, and NaN at the q0 point. -/
theorem C222_bare (T : TabIn) (c : Cfg) (raw : ℕ → ℕ) (near : List E3 → E3 → E3) (f : Option (ℝ → ℝ)) (r : Bool) (size : Option ℕ) (hs : ∀ s, size = some s → 0 < s) :
    ∃ t, table T c raw near ⟨f, true, r⟩ size = .ok t ∧ t.length = T.qs.length ∧ ∀ iq < T.qs.length, ∃ v w, t[iq]? = some (v, w) ∧ v.length = (T.gqs.getD iq []).length ∧
      (∀ (m : ℕ) (g : GVec), (T.gqs.getD iq [])[m]? = some g → v[m]? = some (if qPlusG T iq g = 0 then .nan else .num (8 * Real.pi / ‖qPlusG T iq g‖ ^ 2))) ∧
      w = if iq = T.q0 ∨ cart T.toInp (T.qs.getD iq 0) = 0 then .nan else .num (8 * Real.pi / ‖cart T.toInp (T.qs.getD iq 0)‖) := by
  classical
  have h0 : table T c raw near ⟨f, true, r⟩ none = .ok ((List.range T.qs.length).map fun iq =>
      ((T.gqs.getD iq []).map fun g => .ofOption (GW.vBare (‖cart T.toInp (T.qs.getD iq 0 + crystG g)‖ ^ 2)),
      if 0 < ‖cart T.toInp (T.qvec iq)‖ then .num (8 * Real.pi / ‖cart T.toInp (T.qvec iq)‖) else .nan)) := by
    show ((List.range T.qs.length).map (single T c raw near ⟨f, true, r⟩)).mapM id = _
    rw [List.mapM_map]
    exact GW.mapM_ok _ _ _ fun iq _ => by simp [single]
  have h1 : table T c raw near ⟨f, true, r⟩ size = table T c raw near ⟨f, true, r⟩ none := by
    cases size with
    | none => rfl
    | some s => exact C222_processes T c raw near _ s (hs s rfl)
  rw [h1, h0]
  refine ⟨_, rfl, by simp, fun iq hq => ⟨_, _, by rw [List.getElem?_map, List.getElem?_range hq]; rfl, by simp, fun m g hg => ?_, ?_⟩⟩
  · rw [List.getElem?_map, hg]
    show some (Val.ofOption (GW.vBare (‖cart T.toInp (T.qs.getD iq 0 + crystG g)‖ ^ 2))) = _
    congr 1
    unfold GW.vBare qPlusG
    by_cases hz : cart T.toInp (T.qs.getD iq 0 + crystG g) = 0
    · rw [if_pos hz, hz]
      simp [Val.ofOption]
    · rw [if_neg hz, if_pos (pow_ne_zero 2 (norm_ne_zero_iff.2 hz)), div_eq_mul_inv]
      rfl
  · unfold TabIn.qvec
    by_cases e : iq = T.q0
    · have h00 : cart T.toInp 0 = 0 := by simp [cart]
      have hor : iq = T.q0 ∨ cart T.toInp (T.qs.getD iq 0) = 0 := Or.inl e
      simp only [if_pos hor, if_pos e, h00, norm_zero, lt_irrefl, if_false]
    · by_cases hz : cart T.toInp (T.qs.getD iq 0) = 0
      · have hor : iq = T.q0 ∨ cart T.toInp (T.qs.getD iq 0) = 0 := Or.inr hz
        simp only [if_pos hor, if_neg e]
        simp only [hz, norm_zero, lt_irrefl, if_false]
      · have hor : ¬ (iq = T.q0 ∨ cart T.toInp (T.qs.getD iq 0) = 0) := fun h => h.elim e hz
        simp only [if_neg hor, if_neg e, if_pos (norm_pos_iff.2 hz)]

/-- **C222 (averages).** With `bare=False` the entry of a q-point and G-vector is the average (`v_minibz_montecarlo_hybrid`) for the vector `q + G`, `q` being taken as zero at the q0 point; serially and on any number of
processes. With `N_SAMPLES` up to its default, averages are divided by the number of samples (`hybrid`: see C151). -/
theorem C222_average (T : TabIn) (c : Cfg) (raw : ℕ → ℕ) (near : List E3 → E3 → E3) (f : Option (ℝ → ℝ)) (size : Option ℕ) (hs : ∀ s, size = some s → 0 < s)
    (hc : c.nSamples = 2500000) (hc' : c.nCoarse = 250000) (t : List (List Val × Val)) (ht : table T c raw near ⟨f, false, true⟩ size = .ok t) :
    t.length = T.qs.length ∧ ∀ iq < T.qs.length, ∃ v w, t[iq]? = some (v, w) ∧ v.length = (T.gqs.getD iq []).length ∧
      ∀ (m : ℕ) (g : GVec), (T.gqs.getD iq [])[m]? = some g → ∃ r, hybrid T.toInp raw near ((if iq = T.q0 then 0 else T.qs.getD iq 0) + crystG g) = .ok r ∧ v[m]? = some (.ofOption r.1) := by
  classical
  obtain ⟨h1, h2⟩ := table_get T c raw near _ size hs t ht
  refine ⟨h1, fun iq hq => ?_⟩
  obtain ⟨p, hp, hp'⟩ := h2 iq hq
  unfold single at hp
  simp only [Bool.false_eq_true, if_false, if_true, bind, Except.bind, pure, Except.pure] at hp
  cases hv : (T.gqs.getD iq []).mapM (fun g => hybridV T.toInp c raw near (T.qvec iq + crystG g)) with
  | error e => rw [hv] at hp; simp at hp
  | ok v =>
    rw [hv] at hp
    simp only at hp
    cases hr : oneoverqMC T.toInp c raw near (T.qvec iq) with
    | error e => rw [hr] at hp; simp at hp
    | ok x =>
      rw [hr] at hp
      simp only [Except.ok.injEq] at hp
      subst hp
      obtain ⟨l1, l2⟩ := mapM_get _ _ v hv
      refine ⟨v, .num x, hp', l1, fun m g hg => ?_⟩
      obtain ⟨b, hb, hb'⟩ := l2 m g hg
      rw [hb']
      change hybridV T.toInp c raw near ((if iq = T.q0 then 0 else T.qs.getD iq 0) + crystG g) = .ok b at hb
      generalize ((if iq = T.q0 then 0 else T.qs.getD iq 0) + crystG g : Fin 3 → ℝ) = sh at hb ⊢
      unfold hybridV at hb
      unfold hybrid
      cases hN : gammaNbhd T.toInp with
      | error e => rw [hN] at hb; simp at hb
      | ok Qn =>
        obtain ⟨Q, nb⟩ := Qn
        rw [hN] at hb
        simp only at hb ⊢
        by_cases hsm : ‖cart T.toInp sh‖ < 1 / 100000
        · rw [if_pos hsm] at hb ⊢
          simp only [Except.ok.injEq] at hb
          refine ⟨_, rfl, ?_⟩
          rw [← hb, taken_le c.nSamples hc.le, mean_full, hc]
          rfl
        · rw [if_neg hsm] at hb ⊢
          simp only [Except.ok.injEq] at hb
          refine ⟨_, rfl, ?_⟩
          have hn := nShift_le c (by omega) Q ‖cart T.toInp sh‖
          have hd : ‖cart T.toInp sh‖ ≠ 0 := by
            intro e0
            rw [e0] at hsm
            norm_num at hsm
          have hns : nShift c Q ‖cart T.toInp sh‖ = nSamples Q ‖cart T.toInp sh‖ := by
            unfold nShift nSamples
            rw [hc, hc']
            norm_num
          rw [← hb, taken_le _ (hn.2.trans hc.le), sphereAt, if_neg hd, shift_full, hns]

/-- **C222 (violated: `avgcut`).** With four q-points along one axis of a cubic lattice, `avgcut = 0` and `random_avg=False`, the entry of `q = (1/4, 0, 0)`, `G = 0` should be the bare value and is NaN. -/
theorem C222_avgcut : ∃ (T : TabIn) (iq : ℕ) (g : GVec), g ∈ T.gqs.getD iq [] ∧ qPlusG T iq g ≠ 0 ∧ ∀ (c : Cfg), c.avgcut = 0 → ∀ raw near, ∃ t, table T c raw near ⟨none, false, false⟩ none = .ok t ∧
    ∃ v w, t[iq]? = some (v, w) ∧ ∃ x ∈ v, ∀ average, ¬ documented T c.avgcut average iq g x := by
  classical
  refine ⟨{ cubic [0, ![1 / 4, 0, 0], ![1 / 2, 0, 0], ![3 / 4, 0, 0]] with recvol := 1, gqs := [[], [(0, 0, 0)], [], []], q0 := 0 }, 1, (0, 0, 0), by simp, ?_, ?_⟩
  · intro h
    have := cubic_cart [0, ![1 / 4, 0, 0], ![1 / 2, 0, 0], ![3 / 4, 0, 0]] (![1 / 4, 0, 0] + crystG (0, 0, 0)) 0
    have h' : cart (cubic [0, ![1 / 4, 0, 0], ![1 / 2, 0, 0], ![3 / 4, 0, 0]]) (![1 / 4, 0, 0] + crystG (0, 0, 0)) = 0 := h
    rw [h'] at this
    simp [crystG] at this
  · intro c hc raw near
    obtain ⟨t, ht⟩ := C222_defined { cubic [0, ![1 / 4, 0, 0], ![1 / 2, 0, 0], ![3 / 4, 0, 0]] with recvol := 1, gqs := [[], [(0, 0, 0)], [], []], q0 := 0 } ![1 / 2, 0, 0] (by
        simp only [fullQ, List.mem_flatMap, List.mem_map]
        refine ⟨![1, 1, 1], by simp [signs], ![1 / 2, 0, 0], by simp [cubic], ?_⟩
        funext i; fin_cases i <;> simp) (by
        have := cubic_norm [0, ![1 / 4, 0, 0], ![1 / 2, 0, 0], ![3 / 4, 0, 0]] ![1 / 2, 0, 0]
        refine lt_of_lt_of_eq ?_ this.symm
        simp
        norm_num) c raw near ⟨none, false, false⟩ none (by simp)
    refine ⟨t, ht, ?_⟩
    obtain ⟨-, h2⟩ := table_get _ c raw near _ none (by simp) t ht
    obtain ⟨p, hp, hp'⟩ := h2 1 (by simp [cubic])
    obtain ⟨v, w⟩ := p
    refine ⟨v, w, hp', ?_⟩
    unfold single at hp
    simp only [Bool.false_eq_true, if_false, bind, Except.bind, pure, Except.pure, List.getD_cons_succ, List.getD_cons_zero, List.mapM_cons, List.mapM_nil] at hp
    split at hp
    · cases hp
    simp only [Except.ok.injEq, Prod.mk.injEq] at hp
    obtain ⟨hp1, -⟩ := hp
    rw [← hp1]
    refine ⟨_, List.mem_singleton.2 rfl, fun average => ?_⟩
    have hn : ‖cart (cubic [0, ![1 / 4, 0, 0], ![1 / 2, 0, 0], ![3 / 4, 0, 0]]) (![1 / 4, 0, 0] + crystG (0, 0, 0))‖ = 1 / 4 := by
      rw [← sq_eq_sq₀ (norm_nonneg _) (by norm_num), cubic_norm]
      simp [crystG]
    have hR : (1 / 4 : ℝ) ≤ qCutoff 1 4 := by
      unfold qCutoff
      have h1 : ((1 / 64 : ℝ)) ^ (1 / 3 : ℝ) = 1 / 4 := by
        rw [show (1 / 64 : ℝ) = (1 / 4) ^ (3 : ℕ) by norm_num, ← Real.rpow_natCast, ← Real.rpow_mul (by norm_num)]
        norm_num
      rw [← h1]
      refine Real.rpow_le_rpow (by norm_num) ?_ (by norm_num)
      have := Real.pi_le_four
      have hp := Real.pi_pos
      rw [le_div_iff₀ (by positivity)]
      push_cast
      linarith
    unfold documented
    have hnn : ‖qPlusG { cubic [0, ![1 / 4, 0, 0], ![1 / 2, 0, 0], ![3 / 4, 0, 0]] with recvol := 1, gqs := [[], [(0, 0, 0)], [], []], q0 := 0 } 1 (0, 0, 0)‖ = 1 / 4 := hn
    rw [hnn, hc, if_neg (by norm_num)]
    have hq : (TabIn.qvec { cubic [0, ![1 / 4, 0, 0], ![1 / 2, 0, 0], ![3 / 4, 0, 0]] with recvol := 1, gqs := [[], [(0, 0, 0)], [], []], q0 := 0 } 1) = ![1 / 4, 0, 0] := by
      simp [TabIn.qvec, cubic]
    have hv : sphereAt (qCutoff 1 4) (1 / 4) = .nan := by
      unfold sphereAt vSphereShifted
      rw [if_neg (by norm_num), if_neg (not_lt.2 hR)]
      rfl
    have hlen : ([0, ![1 / 4, 0, 0], ![1 / 2, 0, 0], ![3 / 4, 0, 0]] : List (Fin 3 → ℝ)).length = 4 := rfl
    intro hbad
    rw [hq] at hbad
    have hbad' : sphereAt (qCutoff 1 4) ‖cart (cubic [0, ![1 / 4, 0, 0], ![1 / 2, 0, 0], ![3 / 4, 0, 0]]) (![1 / 4, 0, 0] + crystG (0, 0, 0))‖ = _ := hbad
    rw [hn, hv] at hbad'
    cases hbad'

/-- **C222 (violated: `SEED`).** The samples are those of the settings at the first call: after changing `SEED` the old ones are used again. -/
theorem C222_seed (stream : ℕ → ℕ → ℕ) (c c' : Cfg) (hdiff : rawOf stream c ≠ rawOf stream c') :
    (samplesCall stream c' (samplesCall stream c none).2).1 = rawOf stream c ∧ (samplesCall stream c' (samplesCall stream c none).2).1 ≠ (samplesCall stream c' none).1 :=
  ⟨rfl, hdiff⟩

/-- **C222 (violated: `N_SAMPLES`).** At most 2500000 samples are drawn (the default of a parameter, fixed when the class is created), but the sums are divided by `N_SAMPLES`: with a larger number of samples the average of `1/q` at the q0
point is too small by the factor `2500000 / N_SAMPLES`. -/
theorem C222_more_samples (I : Inp) (c : Cfg) (hc : 2500000 ≤ c.nSamples) (raw : ℕ → ℕ) (near : List E3 → E3 → E3) (Q : ℝ) (nb : List E3) (hN : gammaNbhd I = .ok (Q, nb)) :
    oneoverqMC I c raw near 0 = .ok (2500000 / (c.nSamples : ℝ) * (combineZero I.cellvol I.qs.length Q 2500000 fun i => fold (near nb) (sample I raw i)).2) := by
  have h0 : cart I 0 = 0 := by simp [cart]
  unfold oneoverqMC
  rw [hN]
  simp only [h0, norm_zero, lt_irrefl, if_false, add_zero]
  have hm : max 1 c.nSamples = c.nSamples := by omega
  have ht : taken (max 1 c.nSamples) = 2500000 := by unfold taken drawnSamples; omega
  rw [ht, hm]
  unfold combineZero
  simp only
  congr 1
  have : (c.nSamples : ℝ) ≠ 0 := by
    have : 0 < c.nSamples := by omega
    exact_mod_cast this.ne'
  generalize ((List.range 2500000).map fun i => 1 / ‖fold (near nb) (sample I raw i)‖).sum = s
  push_cast
  field_simp

/-- Four q-points: the hypotheses of C222_average are met for every number of processes. -/
example (raw : ℕ → ℕ) (near : List E3 → E3 → E3) : ∃ t, table { cubic [0, ![1 / 4, 0, 0], ![1 / 2, 0, 0], ![3 / 4, 0, 0]] with recvol := 1, gqs := [[(0, 0, 0)], [(0, 0, 0), (1, 0, 0)], [], []] }
    ⟨5000, 2500000, 250000, 1 / 100000⟩ raw near ⟨none, false, true⟩ (some 3) = .ok t := by
  refine C222_defined _ ![1 / 2, 0, 0] ?_ ?_ _ raw near _ (some 3) (by rintro s ⟨⟩; omega)
  · simp only [fullQ, List.mem_flatMap, List.mem_map]
    refine ⟨![1, 1, 1], by simp [signs], ![1 / 2, 0, 0], by simp [cubic], ?_⟩
    funext i; fin_cases i <;> simp
  · have := cubic_norm [0, ![1 / 4, 0, 0], ![1 / 2, 0, 0], ![3 / 4, 0, 0]] ![1 / 2, 0, 0]
    refine lt_of_lt_of_eq ?_ this.symm
    simp
    norm_num

end Verif.Vcoul
