import Verif.Model.MixDist
import Verif.Props.PotDist
import Verif.Props.Mixing

/-!
# C205: the charge mixing does not depend on how the plane waves are distributed
-/

namespace Verif.MixDist

open Verif.Mixing Verif.Dist

variable {P n s : ℕ} {ln : Fin P → ℕ}

theorem collect_ok {α : Fin P → Type} (o : ∀ p, Except PyErr (α p)) (a : ∀ p, α p) (h : ∀ p, o p = .ok (a p)) : collect o = .ok a := by
  have hn : ¬ ∃ (p : Fin P) (e : PyErr), o p = .error e := by
    rintro ⟨p, e, he⟩
    rw [h p] at he
    cases he
  unfold collect
  rw [dif_neg hn]
  congr 1
  funext p
  split
  · next x hx => rw [h p] at hx; exact (Except.ok.inj hx).symm
  · next e he => rw [h p] at he; cases he

theorem collect_err {α : Fin P → Type} (o : ∀ p, Except PyErr (α p)) (e : PyErr) (hP : 0 < P) (h : ∀ p, o p = .error e) : collect o = .error e := by
  have hn : ∃ (p : Fin P) (e : PyErr), o p = .error e := ⟨⟨0, hP⟩, e, h _⟩
  unfold collect
  rw [dif_pos hn]
  exact congrArg _ (Except.error.inj ((h _).symm.trans hn.choose_spec.choose_spec)).symm

/-- The entries `e p` of a density. -/
def cut (e : ∀ p, Fin (ln p) → Fin n) (r : Dens s n) (p : Fin P) : Dens s (ln p) := fun k j => r k (e p j)

/-- The mixers of all processes hold the parts of the serial one; what is not yet written is arbitrary. -/
structure Rel (e : ∀ p, Fin (ln p) → Fin n) (md : ℕ) (st : St s n) (sd : ∀ p, St s (ln p)) : Prop where
  idx : ∀ p, (sd p).idx = st.idx
  old : 0 < st.idx → ∀ p, (sd p).rhoOld = cut e st.rhoOld p ∧ (sd p).resOld = cut e st.resOld p
  del : ∀ i < min (st.idx - 1) md, ∀ p, (sd p).dRho i = cut e (st.dRho i) p ∧ (sd p).dRes i = cut e (st.dRes i) p
  ov : ∀ a < min (st.idx - 1) md, ∀ b < min (st.idx - 1) md, ∀ p, (sd p).ov a b = st.ov a b

theorem inv_congr (d : ℕ) (f g : ℕ → ℕ → ℂ) (h : ∀ a < d, ∀ b < d, f a b = g a b) : inv d f = inv d g := by
  unfold inv
  have : (Matrix.of fun i j : Fin d => f i j) = Matrix.of fun i j : Fin d => g i j := by
    ext i j
    exact h i i.2 j j.2
  rw [this]

theorem foldl_pair {e : ∀ p, Fin (ln p) → Fin n} (p : Fin P) {d : ℕ} (comp : Fin d → ℂ) (A B : ℕ → Dens s n) (A' B' : ℕ → Dens s (ln p)) (hA : ∀ i < d, A' i = cut e (A i) p)
    (hB : ∀ i < d, B' i = cut e (B i) p) (l : List (Fin d)) (x y : Dens s n) :
    l.foldl (fun (x : Dens s (ln p) × Dens s (ln p)) i => (x.1 - comp i • A' i, x.2 - comp i • B' i)) (cut e x p, cut e y p) =
      (cut e (l.foldl (fun (x : Dens s n × Dens s n) i => (x.1 - comp i • A i, x.2 - comp i • B i)) (x, y)).1 p,
        cut e (l.foldl (fun (x : Dens s n × Dens s n) i => (x.1 - comp i • A i, x.2 - comp i • B i)) (x, y)).2 p) := by
  induction l generalizing x y with
  | nil => rfl
  | cons i l ih =>
    rw [List.foldl_cons, List.foldl_cons, ← ih, hA i i.2, hB i i.2]
    rfl

theorem foldl_one {e : ∀ p, Fin (ln p) → Fin n} (p : Fin P) {d : ℕ} (comp : Fin d → ℂ) (G : ℂ) (A B : ℕ → Dens s n) (A' B' : ℕ → Dens s (ln p)) (hA : ∀ i < d, A' i = cut e (A i) p)
    (hB : ∀ i < d, B' i = cut e (B i) p) (l : List (Fin d)) (x : Dens s n) :
    l.foldl (fun (x : Dens s (ln p)) i => x + comp i • (A' i - G • B' i)) (cut e x p) = cut e (l.foldl (fun (x : Dens s n) i => x + comp i • (A i - G • B i)) x) p := by
  induction l generalizing x with
  | nil => rfl
  | cons i l ih =>
    rw [List.foldl_cons, List.foldl_cons, ← ih, hA i i.2, hB i i.2]
    rfl

theorem modMix_eq (C : DCfg P ln) (st : ∀ p, St s (ln p)) (rin rout : ∀ p, Dens s (ln p)) (p : Fin P) (d iv : ℕ) (hd : min (st p).idx C.mixdim = d) (hi : ((st p).idx - 1) % C.mixdim = iv) (h0 : ¬ d = 0) :
    modMix C st rin rout p =
    match inv d (fillOv iv d (fun i => (C.dot (fun q => upd (st q).dRes iv ((st q).resOld - (rout q - rin q)) i) (fun q => upd (st q).dRes iv ((st q).resOld - (rout q - rin q)) iv) : ℂ)) (st p).ov) with
    | none => .error .runtime
    | some oi =>
      let ldot : Fin d → ℂ := fun i => (C.dot (fun q => upd (st q).dRes iv ((st q).resOld - (rout q - rin q)) i) (fun q => rout q - rin q) : ℂ)
      let comp := (mirror oi).transpose.mulVec ldot
      let x := (List.finRange d).foldl
        (fun (x : Dens s (ln p) × Dens s (ln p)) i => (x.1 - comp i • upd (st p).dRho iv ((st p).rhoOld - rin p) i, x.2 - comp i • upd (st p).dRes iv ((st p).resOld - (rout p - rin p)) i)) (rin p, rout p - rin p)
      .ok ⟨⟨(st p).idx + 1, rin p, rout p - rin p, upd (st p).dRho iv ((st p).rhoOld - rin p), upd (st p).dRes iv ((st p).resOld - (rout p - rin p)),
        fillOv iv d (fun i => (C.dot (fun q => upd (st q).dRes iv ((st q).resOld - (rout q - rin q)) i) (fun q => upd (st q).dRes iv ((st q).resOld - (rout q - rin q)) iv) : ℂ)) (st p).ov⟩,
        x.1 + (C.beta : ℂ) • x.2, rin p⟩ := by
  subst hd hi
  simp only [modMix, if_neg h0]
  generalize inv _ _ = o
  cases o <;> rfl

theorem genMix_eq (C : DCfg P ln) (st : ∀ p, St s (ln p)) (rin rout : ∀ p, Dens s (ln p)) (p : Fin P) (d iv : ℕ) (hd : min (st p).idx C.mixdim = d) (hi : ((st p).idx - 1) % C.mixdim = iv) (h0 : ¬ d = 0) :
    genMix C st rin rout p =
    match inv d (fillOv iv d (fun i => (C.dot (fun q => upd (st q).dRes iv ((rout q - rin q) - (st q).resOld) iv) (fun q => upd (st q).dRes iv ((rout q - rin q) - (st q).resOld) i) : ℂ)) (st p).ov) with
    | none => .error .linalg
    | some oi =>
      let ldot : Fin d → ℂ := fun i => (C.dot (fun q => upd (st q).dRes iv ((rout q - rin q) - (st q).resOld) i) (fun q => -(rout q - rin q)) : ℂ)
      let comp := oi.mulVec ldot
      let del := (List.finRange d).foldl
        (fun (x : Dens s (ln p)) i => x + comp i • (upd (st p).dRho iv (rin p - (st p).rhoOld) i - (-(C.beta : ℂ)) • upd (st p).dRes iv ((rout p - rin p) - (st p).resOld) i)) (-(-(C.beta : ℂ)) • (rout p - rin p))
      .ok ⟨⟨(st p).idx + 1, rin p, rout p - rin p, upd (st p).dRho iv (rin p - (st p).rhoOld), upd (st p).dRes iv ((rout p - rin p) - (st p).resOld),
        fillOv iv d (fun i => (C.dot (fun q => upd (st q).dRes iv ((rout q - rin q) - (st q).resOld) iv) (fun q => upd (st q).dRes iv ((rout q - rin q) - (st q).resOld) i) : ℂ)) (st p).ov⟩,
        rin p + del, rin p + del⟩ := by
  subst hd hi
  simp only [genMix, if_neg h0]
  generalize inv _ _ = o
  cases o <;> rfl

/-- One call on parts. -/
theorem step_sim (m : Method) (e : ∀ p, Fin (ln p) → Fin n) (c : Cfg n) (C : DCfg P ln) (hP : 0 < P) (hb : C.beta = c.beta) (hm : C.mixdim = c.mixdim) (hm0 : 0 < c.mixdim)
    (hdot : ∀ a b : Dens s n, C.dot (fun p => cut e a p) (fun p => cut e b p) = dot c a b) (st : St s n) (sd : ∀ p, St s (ln p)) (hR : Rel e c.mixdim st sd) (rin rout : Dens s n) :
    match Mixing.mix1 m c st rin rout, collect (mix1 m C sd (cut e rin) (cut e rout)) with
    | .ok o, .ok od => Rel e c.mixdim o.st (fun p => (od p).st) ∧ (∀ p, (od p).rho = cut e o.rho p) ∧ ∀ p, (od p).caller = cut e o.caller p
    | .error a, .error b => a = b
    | _, _ => False := by
  have hdot' : ∀ (a b : Dens s n) (a' b' : ∀ p, Dens s (ln p)), (∀ p, a' p = cut e a p) → (∀ p, b' p = cut e b p) → C.dot a' b' = dot c a b := by
    intro a b a' b' ha hb
    rw [← hdot]
    rw [show a' = fun p => cut e a p from funext ha, show b' = fun p => cut e b p from funext hb]
  by_cases h0 : min st.idx c.mixdim = 0
  · have hi0 : st.idx = 0 := by omega
    have key : ∃ o : Out s n, Mixing.mix1 m c st rin rout = .ok o ∧ o.st = { st with idx := st.idx + 1, rhoOld := rin, resOld := rout - rin } ∧ o.rho = rin + (c.beta : ℂ) • (rout - rin) ∧ o.caller = o.rho := by
      cases m
      · exact ⟨⟨_, _, _⟩, by simp only [Mixing.mix1, Mixing.modMix, if_pos h0], rfl, rfl, rfl⟩
      · exact ⟨⟨_, _, _⟩, by simp only [Mixing.mix1, Mixing.genMix, if_pos h0], rfl, rfl, rfl⟩
    obtain ⟨o, ho, hst, hrho, hcl⟩ := key
    have keyd : ∀ p, mix1 m C sd (cut e rin) (cut e rout) p = .ok ⟨{ sd p with idx := (sd p).idx + 1, rhoOld := cut e rin p, resOld := cut e rout p - cut e rin p },
        cut e rin p + (C.beta : ℂ) • (cut e rout p - cut e rin p), cut e rin p + (C.beta : ℂ) • (cut e rout p - cut e rin p)⟩ := by
      intro p
      have h0' : min (sd p).idx C.mixdim = 0 := by rw [hR.idx, hm]; exact h0
      cases m
      · simp only [mix1, modMix, if_pos h0']
      · simp only [mix1, genMix, if_pos h0']
    rw [ho, collect_ok _ _ keyd]
    refine ⟨⟨fun p => ?_, fun _ p => ?_, fun i hi => ?_, fun a ha => ?_⟩, fun p => ?_, fun p => ?_⟩
    · simp only [hst, hR.idx]
    · rw [hst]; exact ⟨rfl, rfl⟩
    · rw [hst] at hi; simp [hi0] at hi
    · rw [hst] at ha; simp [hi0] at ha
    · rw [hrho, hb]; rfl
    · rw [hcl, hrho, hb]; rfl
  · have hpos : 0 < st.idx := by omega
    have hold := hR.old hpos
    have hlt : (st.idx - 1) % c.mixdim < min st.idx c.mixdim := by
      have h1 := Nat.mod_lt (st.idx - 1) hm0
      have h2 := Nat.mod_le (st.idx - 1) c.mixdim
      omega
    have hprev : ∀ i < min st.idx c.mixdim, i ≠ (st.idx - 1) % c.mixdim → i < min (st.idx - 1) c.mixdim := by
      intro i hi hne
      by_cases hh : st.idx - 1 < c.mixdim
      · rw [Nat.mod_eq_of_lt hh] at hne
        omega
      · omega
    generalize hS : (st.idx - 1) % c.mixdim = isv at *
    have hnd : ∀ p, min (sd p).idx C.mixdim = min st.idx c.mixdim := fun p => by rw [hR.idx, hm]
    have hisv : ∀ p, ((sd p).idx - 1) % C.mixdim = isv := fun p => by rw [hR.idx, hm, hS]
    cases m
    · have hR1 : ∀ p, ∀ i < min st.idx c.mixdim, upd (sd p).dRho isv ((sd p).rhoOld - cut e rin p) i = cut e (upd st.dRho isv (st.rhoOld - rin) i) p := by
        intro p i hi
        unfold upd
        by_cases hii : i = isv
        · rw [if_pos hii, if_pos hii, (hold p).1]; rfl
        · rw [if_neg hii, if_neg hii, (hR.del i (hprev i hi hii) p).1]
      have hR2 : ∀ p, ∀ i < min st.idx c.mixdim, upd (sd p).dRes isv ((sd p).resOld - (cut e rout p - cut e rin p)) i = cut e (upd st.dRes isv (st.resOld - (rout - rin)) i) p := by
        intro p i hi
        unfold upd
        by_cases hii : i = isv
        · rw [if_pos hii, if_pos hii, (hold p).2]; rfl
        · rw [if_neg hii, if_neg hii, (hR.del i (hprev i hi hii) p).2]
      have hov : ∀ p, ∀ a < min st.idx c.mixdim, ∀ b < min st.idx c.mixdim,
          fillOv isv (min st.idx c.mixdim) (fun i => (C.dot (fun q => upd (sd q).dRes isv ((sd q).resOld - (cut e rout q - cut e rin q)) i)
            (fun q => upd (sd q).dRes isv ((sd q).resOld - (cut e rout q - cut e rin q)) isv) : ℂ)) (sd p).ov a b =
          fillOv isv (min st.idx c.mixdim) (fun i => (dot c (upd st.dRes isv (st.resOld - (rout - rin)) i) (upd st.dRes isv (st.resOld - (rout - rin)) isv) : ℂ)) st.ov a b := by
        intro p a ha b hb'
        rw [fillOv_apply, fillOv_apply]
        have hd : ∀ i < min st.idx c.mixdim, C.dot (fun q => upd (sd q).dRes isv ((sd q).resOld - (cut e rout q - cut e rin q)) i)
            (fun q => upd (sd q).dRes isv ((sd q).resOld - (cut e rout q - cut e rin q)) isv) = dot c (upd st.dRes isv (st.resOld - (rout - rin)) i) (upd st.dRes isv (st.resOld - (rout - rin)) isv) :=
          fun i hi => hdot' _ _ _ _ (fun q => hR2 q i hi) fun q => hR2 q isv hlt
        by_cases h1 : a = isv ∧ b < min st.idx c.mixdim
        · rw [if_pos h1, if_pos h1, hd b hb']
        · rw [if_neg h1, if_neg h1]
          by_cases h2 : b = isv ∧ a < min st.idx c.mixdim
          · rw [if_pos h2, if_pos h2, hd a ha]
          · rw [if_neg h2, if_neg h2]
            exact hR.ov a (hprev a ha fun h => h1 ⟨h, hb'⟩) b (hprev b hb' fun h => h2 ⟨h, ha⟩) p
      have hser : Mixing.mix1 .mod c st rin rout = Mixing.modMix c st rin rout := rfl
      rw [hser]
      simp only [Mixing.modMix, if_neg h0, hS]
      have hD : ∀ p, mix1 .mod C sd (cut e rin) (cut e rout) p = modMix C sd (cut e rin) (cut e rout) p := fun _ => rfl
      generalize hI : inv (min st.idx c.mixdim) (fillOv isv (min st.idx c.mixdim) (fun i => (dot c (upd st.dRes isv (st.resOld - (rout - rin)) i) (upd st.dRes isv (st.resOld - (rout - rin)) isv) : ℂ)) st.ov) = io at *
      have hI' : ∀ p, inv (min st.idx c.mixdim) (fillOv isv (min st.idx c.mixdim) (fun i => (C.dot (fun q => upd (sd q).dRes isv ((sd q).resOld - (cut e rout q - cut e rin q)) i)
            (fun q => upd (sd q).dRes isv ((sd q).resOld - (cut e rout q - cut e rin q)) isv) : ℂ)) (sd p).ov) = io := fun p => (inv_congr _ _ _ (hov p)).trans hI
      cases io with
      | none =>
        have : ∀ p, mix1 .mod C sd (cut e rin) (cut e rout) p = .error .runtime := by
          intro p
          rw [hD]
          rw [modMix_eq C sd _ _ p _ _ (hnd p) (hisv p) h0]
          rw [hI' p]
        rw [collect_err _ _ hP this]
      | some oi =>
        have hl : ∀ i : Fin (min st.idx c.mixdim), C.dot (fun q => upd (sd q).dRes isv ((sd q).resOld - (cut e rout q - cut e rin q)) i) (fun q => cut e rout q - cut e rin q)
            = dot c (upd st.dRes isv (st.resOld - (rout - rin)) i) (rout - rin) := fun i => hdot' _ _ _ _ (fun q => hR2 q i i.2) fun q => rfl
        let od : ∀ p, Out s (ln p) := fun p =>
          ⟨⟨(sd p).idx + 1, cut e rin p, cut e rout p - cut e rin p, upd (sd p).dRho isv ((sd p).rhoOld - cut e rin p), upd (sd p).dRes isv ((sd p).resOld - (cut e rout p - cut e rin p)),
            fillOv isv (min st.idx c.mixdim) (fun i => (C.dot (fun q => upd (sd q).dRes isv ((sd q).resOld - (cut e rout q - cut e rin q)) i)
            (fun q => upd (sd q).dRes isv ((sd q).resOld - (cut e rout q - cut e rin q)) isv) : ℂ)) (sd p).ov⟩,
            cut e ((List.finRange (min st.idx c.mixdim)).foldl (fun (p : Dens s n × Dens s n) i =>
              (p.1 - ((mirror oi).transpose.mulVec fun i : Fin (min st.idx c.mixdim) => (dot c (upd st.dRes isv (st.resOld - (rout - rin)) i) (rout - rin) : ℂ)) i • upd st.dRho isv (st.rhoOld - rin) i,
                p.2 - ((mirror oi).transpose.mulVec fun i : Fin (min st.idx c.mixdim) => (dot c (upd st.dRes isv (st.resOld - (rout - rin)) i) (rout - rin) : ℂ)) i • upd st.dRes isv (st.resOld - (rout - rin)) i))
              (rin, rout - rin)).1 p + (C.beta : ℂ) • cut e ((List.finRange (min st.idx c.mixdim)).foldl (fun (p : Dens s n × Dens s n) i =>
              (p.1 - ((mirror oi).transpose.mulVec fun i : Fin (min st.idx c.mixdim) => (dot c (upd st.dRes isv (st.resOld - (rout - rin)) i) (rout - rin) : ℂ)) i • upd st.dRho isv (st.rhoOld - rin) i,
                p.2 - ((mirror oi).transpose.mulVec fun i : Fin (min st.idx c.mixdim) => (dot c (upd st.dRes isv (st.resOld - (rout - rin)) i) (rout - rin) : ℂ)) i • upd st.dRes isv (st.resOld - (rout - rin)) i))
              (rin, rout - rin)).2 p, cut e rin p⟩
        have : ∀ p, mix1 .mod C sd (cut e rin) (cut e rout) p = .ok (od p) := by
          intro p
          rw [hD]
          rw [modMix_eq C sd _ _ p _ _ (hnd p) (hisv p) h0]
          rw [hI' p]
          simp only [hl]
          have := foldl_pair (e := e) p ((mirror oi).transpose.mulVec fun i : Fin (min st.idx c.mixdim) => (dot c (upd st.dRes isv (st.resOld - (rout - rin)) i) (rout - rin) : ℂ)) _ _ _ _ (hR1 p) (hR2 p)
            (List.finRange (min st.idx c.mixdim)) rin (rout - rin)
          have h2 : (cut e rin p, cut e rout p - cut e rin p) = (cut e rin p, cut e (rout - rin) p) := rfl
          rw [h2, this]
        rw [collect_ok _ _ this]
        refine ⟨⟨fun p => ?_, fun _ p => ⟨rfl, rfl⟩, fun i hi p => ⟨hR1 p i hi, hR2 p i hi⟩, fun a ha b hb' p => hov p a ha b hb'⟩, fun p => ?_, fun p => rfl⟩
        · show (sd p).idx + 1 = st.idx + 1
          rw [hR.idx]
        · show _ + (C.beta : ℂ) • _ = _
          rw [hb]
          rfl
    · have hR1 : ∀ p, ∀ i < min st.idx c.mixdim, upd (sd p).dRho isv (cut e rin p - (sd p).rhoOld) i = cut e (upd st.dRho isv (rin - st.rhoOld) i) p := by
        intro p i hi
        unfold upd
        by_cases hii : i = isv
        · rw [if_pos hii, if_pos hii, (hold p).1]; rfl
        · rw [if_neg hii, if_neg hii, (hR.del i (hprev i hi hii) p).1]
      have hR2 : ∀ p, ∀ i < min st.idx c.mixdim, upd (sd p).dRes isv ((cut e rout p - cut e rin p) - (sd p).resOld) i = cut e (upd st.dRes isv ((rout - rin) - st.resOld) i) p := by
        intro p i hi
        unfold upd
        by_cases hii : i = isv
        · rw [if_pos hii, if_pos hii, (hold p).2]; rfl
        · rw [if_neg hii, if_neg hii, (hR.del i (hprev i hi hii) p).2]
      have hov : ∀ p, ∀ a < min st.idx c.mixdim, ∀ b < min st.idx c.mixdim,
          fillOv isv (min st.idx c.mixdim) (fun i => (C.dot (fun q => upd (sd q).dRes isv ((cut e rout q - cut e rin q) - (sd q).resOld) isv)
            (fun q => upd (sd q).dRes isv ((cut e rout q - cut e rin q) - (sd q).resOld) i) : ℂ)) (sd p).ov a b =
          fillOv isv (min st.idx c.mixdim) (fun i => (dot c (upd st.dRes isv ((rout - rin) - st.resOld) isv) (upd st.dRes isv ((rout - rin) - st.resOld) i) : ℂ)) st.ov a b := by
        intro p a ha b hb'
        rw [fillOv_apply, fillOv_apply]
        have hd : ∀ i < min st.idx c.mixdim, C.dot (fun q => upd (sd q).dRes isv ((cut e rout q - cut e rin q) - (sd q).resOld) isv)
            (fun q => upd (sd q).dRes isv ((cut e rout q - cut e rin q) - (sd q).resOld) i) = dot c (upd st.dRes isv ((rout - rin) - st.resOld) isv) (upd st.dRes isv ((rout - rin) - st.resOld) i) :=
          fun i hi => hdot' _ _ _ _ (fun q => hR2 q isv hlt) fun q => hR2 q i hi
        by_cases h1 : a = isv ∧ b < min st.idx c.mixdim
        · rw [if_pos h1, if_pos h1, hd b hb']
        · rw [if_neg h1, if_neg h1]
          by_cases h2 : b = isv ∧ a < min st.idx c.mixdim
          · rw [if_pos h2, if_pos h2, hd a ha]
          · rw [if_neg h2, if_neg h2]
            exact hR.ov a (hprev a ha fun h => h1 ⟨h, hb'⟩) b (hprev b hb' fun h => h2 ⟨h, ha⟩) p
      have hser : Mixing.mix1 .gen c st rin rout = Mixing.genMix c st rin rout := rfl
      rw [hser]
      simp only [Mixing.genMix, if_neg h0, hS]
      have hD : ∀ p, mix1 .gen C sd (cut e rin) (cut e rout) p = genMix C sd (cut e rin) (cut e rout) p := fun _ => rfl
      generalize hI : inv (min st.idx c.mixdim) (fillOv isv (min st.idx c.mixdim) (fun i => (dot c (upd st.dRes isv ((rout - rin) - st.resOld) isv) (upd st.dRes isv ((rout - rin) - st.resOld) i) : ℂ)) st.ov) = io at *
      have hI' : ∀ p, inv (min st.idx c.mixdim) (fillOv isv (min st.idx c.mixdim) (fun i => (C.dot (fun q => upd (sd q).dRes isv ((cut e rout q - cut e rin q) - (sd q).resOld) isv)
            (fun q => upd (sd q).dRes isv ((cut e rout q - cut e rin q) - (sd q).resOld) i) : ℂ)) (sd p).ov) = io := fun p => (inv_congr _ _ _ (hov p)).trans hI
      cases io with
      | none =>
        have : ∀ p, mix1 .gen C sd (cut e rin) (cut e rout) p = .error .linalg := by
          intro p
          rw [hD]
          rw [genMix_eq C sd _ _ p _ _ (hnd p) (hisv p) h0]
          rw [hI' p]
        rw [collect_err _ _ hP this]
      | some oi =>
        have hl : ∀ i : Fin (min st.idx c.mixdim), C.dot (fun q => upd (sd q).dRes isv ((cut e rout q - cut e rin q) - (sd q).resOld) i) (fun q => -(cut e rout q - cut e rin q))
            = dot c (upd st.dRes isv ((rout - rin) - st.resOld) i) (-(rout - rin)) := fun i => hdot' _ _ _ _ (fun q => hR2 q i i.2) fun q => rfl
        let od : ∀ p, Out s (ln p) := fun p =>
          let r := cut e rin p + cut e ((List.finRange (min st.idx c.mixdim)).foldl (fun (x : Dens s n) i =>
              x + (oi.mulVec fun i : Fin (min st.idx c.mixdim) => (dot c (upd st.dRes isv ((rout - rin) - st.resOld) i) (-(rout - rin)) : ℂ)) i •
                (upd st.dRho isv (rin - st.rhoOld) i - (-(c.beta : ℂ)) • upd st.dRes isv ((rout - rin) - st.resOld) i)) (-(-(c.beta : ℂ)) • (rout - rin))) p
          ⟨⟨(sd p).idx + 1, cut e rin p, cut e rout p - cut e rin p, upd (sd p).dRho isv (cut e rin p - (sd p).rhoOld), upd (sd p).dRes isv ((cut e rout p - cut e rin p) - (sd p).resOld),
            fillOv isv (min st.idx c.mixdim) (fun i => (C.dot (fun q => upd (sd q).dRes isv ((cut e rout q - cut e rin q) - (sd q).resOld) isv)
            (fun q => upd (sd q).dRes isv ((cut e rout q - cut e rin q) - (sd q).resOld) i) : ℂ)) (sd p).ov⟩, r, r⟩
        have : ∀ p, mix1 .gen C sd (cut e rin) (cut e rout) p = .ok (od p) := by
          intro p
          rw [hD]
          rw [genMix_eq C sd _ _ p _ _ (hnd p) (hisv p) h0]
          rw [hI' p]
          simp only [hl, hb]
          have := foldl_one (e := e) p (oi.mulVec fun i : Fin (min st.idx c.mixdim) => (dot c (upd st.dRes isv ((rout - rin) - st.resOld) i) (-(rout - rin)) : ℂ)) (-(c.beta : ℂ)) _ _ _ _ (hR1 p) (hR2 p)
            (List.finRange (min st.idx c.mixdim)) (-(-(c.beta : ℂ)) • (rout - rin))
          have h2 : -(-(c.beta : ℂ)) • (cut e rout p - cut e rin p) = cut e (-(-(c.beta : ℂ)) • (rout - rin)) p := rfl
          rw [h2, this]
        rw [collect_ok _ _ this]
        refine ⟨⟨fun p => ?_, fun _ p => ⟨rfl, rfl⟩, fun i hi p => ⟨hR1 p i hi, hR2 p i hi⟩, fun a ha b hb' p => hov p a ha b hb'⟩, fun p => rfl, fun p => rfl⟩
        show (sd p).idx + 1 = st.idx + 1
        rw [hR.idx]

/-- A history of calls on parts. -/
theorem run_sim (m : Method) (e : ∀ p, Fin (ln p) → Fin n) (c : Cfg n) (C : DCfg P ln) (hP : 0 < P) (hb : C.beta = c.beta) (hm : C.mixdim = c.mixdim) (hm0 : 0 < c.mixdim)
    (hdot : ∀ a b : Dens s n, C.dot (fun p => cut e a p) (fun p => cut e b p) = dot c a b) (st : St s n) (sd : ∀ p, St s (ln p)) (hR : Rel e c.mixdim st sd) (ins outs : ℕ → Dens s n) (k : ℕ) :
    match Mixing.run m c st ins outs k, run m C sd (fun j => cut e (ins j)) (fun j => cut e (outs j)) k with
    | .ok o, .ok od => Rel e c.mixdim o.1 od.1 ∧ od.2 = o.2.map (cut e)
    | .error a, .error b => a = b
    | _, _ => False := by
  induction k with
  | zero => exact ⟨hR, rfl⟩
  | succ k ih =>
    have e1 : Mixing.run m c st ins outs (k + 1) = match Mixing.run m c st ins outs k with
        | .error e => .error e
        | .ok (st', l) => match Mixing.mix1 m c st' (ins k) (outs k) with
          | .error e => .error e
          | .ok r => .ok (r.st, l ++ [r.rho]) := by
      show (do
        let (st', l) ← Mixing.run m c st ins outs k
        let r ← Mixing.mix1 m c st' (ins k) (outs k)
        pure (r.st, l ++ [r.rho])) = _
      cases Mixing.run m c st ins outs k with
      | error e => rfl
      | ok x =>
        obtain ⟨st', l⟩ := x
        show (do
          let r ← Mixing.mix1 m c st' (ins k) (outs k)
          pure (r.st, l ++ [r.rho])) = _
        dsimp only
        cases Mixing.mix1 m c st' (ins k) (outs k) <;> rfl
    rw [e1]
    simp only [run]
    revert ih
    generalize Mixing.run m c st ins outs k = a
    generalize run m C sd (fun j => cut e (ins j)) (fun j => cut e (outs j)) k = b
    intro ih
    cases a with
    | error ea =>
      cases b with
      | error eb => exact ih
      | ok b => exact ih.elim
    | ok a =>
      cases b with
      | error eb => exact ih.elim
      | ok b =>
        obtain ⟨st', l⟩ := a
        obtain ⟨sd', ld⟩ := b
        obtain ⟨h1, h2⟩ := ih
        have := step_sim m e c C hP hb hm hm0 hdot st' sd' h1 (ins k) (outs k)
        dsimp only at h2 ⊢
        revert this
        generalize Mixing.mix1 m c st' (ins k) (outs k) = x
        generalize collect (mix1 m C sd' (cut e (ins k)) (cut e (outs k))) = y
        intro this
        cases x with
        | error ea =>
          cases y with
          | error eb => exact this
          | ok b => exact this.elim
        | ok x =>
          cases y with
          | error eb => exact this.elim
          | ok y =>
            refine ⟨this.1, ?_⟩
            dsimp only
            rw [h2, List.map_append]
            congr 2
            exact funext this.2.1

/-! ## Specification -/

/-- What the processes of a plane-wave group read when the serial mixer reads `c`: the parts of `g_norm2`, their own `has_g0`, and the same scalars. -/
noncomputable def cfgPart (S : Setup) (gs : List (Fin 3 → ℤ)) (c : Cfg S.idx.length) : DCfg S.P (fun p => (S.cutG p S.idx).length) where
  g2 := PotDist.part S c.g2
  hasG0 p := PotDist.hasG0 S gs p
  dv := c.dv
  npts := c.npts
  tpiba := c.tpiba
  beta := c.beta
  mixdim := c.mixdim

/-- The parts of a density, held by the processes. -/
def densPart (S : Setup) (r : Dens s S.idx.length) (p : Fin S.P) : Dens s (S.cutG p S.idx).length := fun k => PotDist.part S (r k) p

/-- **C205, history.** Both methods, run by any number of processes on the parts of the densities of any history of calls, starting from mixers whose arrays are uninitialised (differently on
each process): the mixed densities are the parts of the serial ones, call by call; the run fails exactly when the serial one does, with the same exception; and all processes always
count the same number of calls, so that their collective sums match. -/
theorem C205_history (S : Setup) (hS : S.Ok) (gs : List (Fin 3 → ℤ)) (hg : PotDist.GList S gs) (m : Method) (c : Cfg S.idx.length) (hc : c.hasG0 = decide (gs.head? = some 0)) (hm : 1 < c.mixdim)
    (st : St s S.idx.length) (h0 : st.idx = 0) (sd : ∀ p : Fin S.P, St s (S.cutG p S.idx).length) (h0' : ∀ p, (sd p).idx = 0) (ins outs : ℕ → Dens s S.idx.length) (k : ℕ) :
    match Mixing.run m c st ins outs k, run m (cfgPart S gs c) sd (fun j => densPart S (ins j)) (fun j => densPart S (outs j)) k with
    | .ok (st', l), .ok (sd', ld) => ld = l.map (densPart S) ∧ ∀ p, (sd' p).idx = st'.idx
    | .error a, .error b => a = b
    | _, _ => False := by
  have hcut : ∀ r : Dens s S.idx.length, densPart S r = cut (PotDist.eG S hS) r := by
    intro r
    funext p k
    show PotDist.part S (r k) p = _
    rw [PotDist.part_eq S hS]
    rfl
  have hcut' : (densPart S : Dens s S.idx.length → _) = cut (PotDist.eG S hS) := funext hcut
  have hR : Rel (PotDist.eG S hS) c.mixdim st sd :=
    ⟨fun p => by rw [h0', h0], fun h => by omega, fun i hi => by simp [h0] at hi, fun a ha => by simp [h0] at ha⟩
  have := run_sim m (PotDist.eG S hS) c (cfgPart S gs c) hS.pos rfl rfl (by omega) (fun a b => ?_) st sd hR ins outs k
  · rw [hcut']
    revert this
    generalize Mixing.run m c st ins outs k = a
    generalize run m (cfgPart S gs c) sd _ _ k = b
    intro this
    cases a <;> cases b
    · exact this
    · exact this.elim
    · exact this.elim
    · exact ⟨this.2, this.1.idx⟩
  · have := PotDist.C204_metric S hS gs hg c hc a b
    simp only [PotDist.part_eq S hS] at this
    unfold DCfg.dot cfgPart cut
    simp only [PotDist.part_eq S hS]
    exact this

/-- **C205, convergence measure.** -/
theorem C205_error (S : Setup) (hS : S.Ok) (gs : List (Fin 3 → ℤ)) (hg : PotDist.GList S gs) (c : Cfg S.idx.length) (hc : c.hasG0 = decide (gs.head? = some 0)) (rin rout : Dens s S.idx.length) :
    computeError (cfgPart S gs c) (densPart S rin) (densPart S rout) = Mixing.computeError c rin rout := by
  have := PotDist.C204_metric S hS gs hg c hc (rin - rout) (rin - rout)
  simp only [PotDist.part_eq S hS] at this
  unfold computeError DCfg.dot cfgPart densPart Mixing.computeError
  simp only [PotDist.part_eq S hS]
  exact this

/-! ## Non-vacuity -/

/-- The four G-vectors of `PotDist.exS`. -/
noncomputable def exC : Cfg PotDist.exS.idx.length := ⟨fun i => if i.1 = 0 then 0 else 1, true, 1, 1, 1, 1 / 2, 2⟩

/-- Outputs `j + 1` at the second G-vector. -/
noncomputable def exOut (j : ℕ) : Dens 1 PotDist.exS.idx.length := fun _ i => if i.1 = 1 then (j : ℂ) + 1 else 0

/-- Two processes, two successful calls from uninitialised mixers. -/
example (m : Method) (sd : ∀ p : Fin PotDist.exS.P, St 1 (PotDist.exS.cutG p PotDist.exS.idx).length) (h0 : ∀ p, (sd p).idx = 0) :
    ∃ sd' ld, run m (cfgPart PotDist.exS [0, ![1, 0, 0], ![0, 0, 1], ![0, 1, 0]] exC) sd (fun _ => densPart PotDist.exS 0) (fun j => densPart PotDist.exS (exOut j)) 2 = .ok (sd', ld) ∧
      ∀ p, (sd' p).idx = 2 := by
  have hg : PotDist.GList PotDist.exS [0, ![1, 0, 0], ![0, 0, 1], ![0, 1, 0]] := by
    refine ⟨rfl, fun i hi => ?_⟩
    rcases i with _ | _ | _ | _ | i
    · rfl
    all_goals exfalso; revert hi; simp [funext_iff, Fin.forall_fin_succ]
  obtain ⟨st', h, hi⟩ := (run_spec m exC (by norm_num [exC]) (fun _ => 0) exOut ⟨0, 0, 0, 0, 0, 0⟩ rfl 1).1 (by
    intro j h1 h2
    obtain rfl : j = 1 := by omega
    have hd : dot exC (dF (rs (fun _ => 0) exOut) 0) (dF (rs (fun _ => 0) exOut) 0) ≠ 0 := by
      rw [dot_self]
      have hS : ∀ F : Fin PotDist.exS.idx.length → ℝ, ∑ i, F i = F ⟨0, by decide⟩ + F ⟨1, by decide⟩ + F ⟨2, by decide⟩ + F ⟨3, by decide⟩ := fun F => Fin.sum_univ_four (fun i : Fin 4 => F i)
      simp [exC, Cfg.fac, dF, rs, exOut, hS]
      norm_num
    rwa [det_one_of (min 1 exC.mixdim) (by simp [exC]) (gram exC (fun _ => 0) exOut 1) _ fun i j => ?_]
    have hi : (i : ℕ) = 0 := by have := i.2; simp at this; omega
    have hj : (j : ℕ) = 0 := by have := j.2; simp at this; omega
    simp only [gram, Matrix.of_apply, hi, hj]
    rfl)
  have := C205_history PotDist.exS PotDist.exS_ok _ hg m exC rfl (by norm_num [exC]) ⟨0, 0, 0, 0, 0, 0⟩ rfl sd h0 (fun _ => 0) exOut 2
  rw [h] at this
  revert this
  generalize run m _ sd _ _ 2 = b
  intro this
  cases b with
  | error e => exact this.elim
  | ok b => exact ⟨b.1, b.2, rfl, fun p => by rw [this.2 p, hi.idx]⟩

end Verif.MixDist
