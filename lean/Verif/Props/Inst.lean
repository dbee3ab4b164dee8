import Verif.Terms.Inst
import Verif.Props.Mgu

/-!
# C05: instantiation and replacement build the intended term

Specification vocabulary: `FullInst`, `replaceAll`, `subtermAt`, `replaceAt`,
`PartialRepl` in `Verif/Terms/Spec.lean`.
-/

namespace Verif.Props
open Verif Term

/-- C05: for good bindings, instantiation with `DEREF_ALWAYS` terminates and builds the
term with all bindings applied exhaustively; variables that remain are replaced
by their second-level (normalising) variable. -/
theorem instantiate_exact (sg : Sig) (bind : Nat → Option Term) (rn : Nat → Option Nat)
    (hb : GoodBindings sg bind) (t : Term) :
    ∃ σ, FullInst bind σ ∧ (∃ N, ∀ n ≥ N,
      instOpt bind rn n t = some ((t.subst σ).subst fun x => .var ((rn x).getD x))) ∧
    ∀ n r, instOpt bind rn n t = some r → r = (t.subst σ).subst fun x => .var ((rn x).getD x) := by
  obtain ⟨L, hL⟩ := hb.finite
  obtain ⟨tr, htri, hrep⟩ := MguProof.trail_of_acyclic L bind hb.acyclic hL
  have hσ : FullInst bind (MguProof.inst tr) :=
    ⟨by rw [hrep]; exact MguProof.sat_inst htri, fun x hx => MguProof.inst_unbound (by rw [← hrep]; exact hx)⟩
  have hac : MguProof.Acyclic bind := by rw [hrep]; exact MguProof.tri_acyclic htri
  have hc : ∀ n r, instOpt bind rn n t = some r →
      r = (t.subst (MguProof.inst tr)).subst fun x => .var ((rn x).getD x) := by
    intro n r h
    have := InstProof.instOpt_correct hσ n t r h
    rw [InstProof.subst_full] at this
    exact this
  refine ⟨_, hσ, ?_, hc⟩
  obtain ⟨N, r, hN⟩ := InstProof.instOpt_total rn hac hσ _ t (le_refl _)
  exact ⟨N, fun n hn => by rw [hN n hn, hc n r (hN n hn)]⟩

/-- C05: `TBInsertInstantiatedFO` applies each binding once. When the bound terms
contain no bound variables (as for matchers of a disjoint rule), this is the exhaustive
instantiation. -/
theorem instantiateFO_exact (bind : Nat → Option Term)
    (hb : ∀ x u, bind x = some u → ∀ y ∈ u.vars, bind y = none) :
    FullInst bind (fun x => instFO bind (.var x)) ∧
    ∀ t, instFO bind t = t.subst fun x => instFO bind (.var x) := by
  refine ⟨⟨fun x u hx => ?_, fun x hx => ?_⟩, fun t => ?_⟩
  · simp only [instFO, subst_var, hx, Option.getD_some]
    refine ((subst_congr (t := u) fun y hy => ?_).trans (subst_id u)).symm
    simp [hb x u hx y hy]
  · simp [instFO, hx]
  · simp [instFO]

/-- C05: `TBInsertReplPlain` replaces all occurrences of `old`. -/
theorem replPlain_exact (old repl t : Term) : replPlain old repl t = replaceAll old repl t :=
  InstProof.replPlain_eq t

/-- C05: without bindings `TBInsertRepl` replaces all occurrences of `old`. -/
theorem repl_exact (old repl t : Term) :
    ∃ N, ∀ n ≥ N, instRepl (fun _ => none) (fun _ => none) old repl n t
      = some (replaceAll old repl t) := by
  induction t using Term.ind with
  | hv x =>
    refine ⟨2, fun n hn => ?_⟩
    obtain ⟨m, rfl⟩ : ∃ m, n = m + 2 := ⟨n - 2, by omega⟩
    by_cases h : var x = old <;> simp [instRepl, replaceAll, h, derefAlways, varOut]
  | ha f ts ih =>
    by_cases h : app f ts = old
    · refine ⟨1, fun n hn => ?_⟩
      obtain ⟨m, rfl⟩ : ∃ m, n = m + 1 := ⟨n - 1, by omega⟩
      simp [instRepl, replaceAll, h]
    · have hL : ∀ us : List Term, (∀ u ∈ us, u ∈ ts) → ∃ N, ∀ n ≥ N,
          mapOpt (fun u => instRepl (fun _ => none) (fun _ => none) old repl n u) us
            = some (us.map (replaceAll old repl)) := by
        intro us
        induction us with
        | nil => exact fun _ => ⟨0, fun _ _ => rfl⟩
        | cons u us ihu =>
          intro hu
          obtain ⟨N1, h1⟩ := ih u (hu u (by simp))
          obtain ⟨N2, h2⟩ := ihu fun v hv => hu v (by simp [hv])
          exact ⟨N1 + N2, fun n hn => by simp [mapOpt, h1 n (by omega), h2 n (by omega)]⟩
      obtain ⟨N, hN⟩ := hL ts fun _ h => h
      refine ⟨N + 2, fun n hn => ?_⟩
      obtain ⟨m, rfl⟩ : ∃ m, n = m + 2 := ⟨n - 2, by omega⟩
      rw [instRepl, if_neg h]
      simp [derefAlways, replaceAll, h, InstProof.replaceAllL_eq, hN (m + 1) (by omega)]

/-- C05: with bindings, `TBInsertRepl` only ever replaces instances of `old`. -/
theorem repl_bound (sg : Sig) (bind : Nat → Option Term) (rn : Nat → Option Nat)
    (hb : GoodBindings sg bind) (old repl t r : Term) (n : Nat)
    (h : instRepl bind rn old repl n t = some r) :
    ∃ σ, FullInst bind σ ∧
      PartialRepl ((old.subst σ).subst fun x => .var ((rn x).getD x)) repl
        ((t.subst σ).subst fun x => .var ((rn x).getD x)) r := by
  obtain ⟨L, hL⟩ := hb.finite
  obtain ⟨tr, htri, hrep⟩ := MguProof.trail_of_acyclic L bind hb.acyclic hL
  have hσ : FullInst bind (MguProof.inst tr) :=
    ⟨by rw [hrep]; exact MguProof.sat_inst htri, fun x hx => MguProof.inst_unbound (by rw [← hrep]; exact hx)⟩
  refine ⟨_, hσ, ?_⟩
  have := InstProof.instRepl_partial hσ n t r h
  rw [InstProof.subst_full, InstProof.subst_full] at this
  exact this

/-- C05: at a valid position, `TBTermPosReplace` replaces exactly the subterm at that
position, `TermPosGetSubterm` reads it, and the weight changes by the difference. -/
theorem posReplace_exact (t : Term) (pos : List (Term × Nat)) (h : IsPos t pos) (repl : Term) :
    posReplace pos repl = replaceAt t (pos.map Prod.snd) repl ∧
    posSubterm t pos = subtermAt t (pos.map Prod.snd) ∧
    ∃ old, posSubterm t pos = some old ∧
      ∀ vw fw, (posReplace pos repl).weight vw fw + old.weight vw fw = t.weight vw fw + repl.weight vw fw := by
  refine ⟨InstProof.posReplace_eq h repl, InstProof.posSubterm_eq h, ?_⟩
  rw [InstProof.posReplace_eq h repl, InstProof.posSubterm_eq h]
  induction pos generalizing t with
  | nil =>
    refine ⟨t, by simp [subtermAt], fun vw fw => ?_⟩
    simp only [List.map_nil]
    cases t <;> simp [replaceAt, Nat.add_comm]
  | cons p pos ih =>
    obtain ⟨s, i⟩ := p
    obtain ⟨rfl, f, ts, u, rfl, hi, hp⟩ := h
    obtain ⟨old, ho, hw⟩ := ih u hp
    refine ⟨old, by simp [subtermAt, hi, ho], fun vw fw => ?_⟩
    have hw' := hw vw fw
    simp only [List.map_cons, replaceAt, hi]
    have key : ∀ (ts : List Term) (i : Nat) (u v : Term), ts[i]? = some u →
        weightL vw fw (ts.set i v) + u.weight vw fw = weightL vw fw ts + v.weight vw fw := by
      intro ts
      induction ts with
      | nil => intro i u v h; simp at h
      | cons w ws ihw =>
        intro i u v h
        cases i with
        | zero => simp at h; subst h; simp only [List.set_cons_zero, weightL]; omega
        | succ i => simp at h; have := ihw i u v h; simp only [List.set_cons_succ, weightL]; omega
    simp only [weight]
    have := key ts i u (replaceAt u (pos.map Prod.snd) repl) hi
    omega

/- Non-triviality: f(X1, g(X1)) under {X1 ↦ h(X2), X2 ↦ a}. -/
example : instOpt (fun x => if x = 2 then some (app 13 [var 4]) else if x = 4 then some (app 14 []) else none)
    (fun _ => none) 9 (app 11 [var 2, app 12 [var 2]])
    = some (app 11 [app 13 [app 14 []], app 12 [app 13 [app 14 []]]]) := by decide

example (sg : Sig) (h1 : sg.fty 13 = sg.vty 2) (h2 : sg.fty 14 = sg.vty 4) : GoodBindings sg
    (fun x => if x = 2 then some (app 13 [var 4]) else if x = 4 then some (app 14 []) else none) := by
  refine ⟨⟨[2, 4], fun x hx => ?_⟩, ⟨fun x => if x = 2 then 1 else 0, fun x u hx y hy => ?_⟩, fun x u hx => ?_⟩
  · by_contra hc; simp at hc; simp [hc] at hx
  · split at hx
    · simp at hx; subst hx; simp [vars, varsL] at hy; subst hy; simp_all
    · split at hx <;> simp at hx; subst hx; simp [vars, varsL] at hy
  · split at hx
    · simp at hx; subst hx; simp_all [Sig.ty]
    · split at hx <;> simp at hx; subst hx; simp_all [Sig.ty]

example : replPlain (app 12 [var 2]) (app 14 []) (app 11 [app 12 [var 2], app 13 [app 12 [var 2]]])
    = app 11 [app 14 [], app 13 [app 14 []]] := by decide

example : IsPos (app 11 [var 2, app 12 [var 4]]) [(app 11 [var 2, app 12 [var 4]], 1), (app 12 [var 4], 0)] :=
  ⟨rfl, 11, _, app 12 [var 4], rfl, rfl, rfl, 12, _, var 4, rfl, rfl, trivial⟩

end Verif.Props
