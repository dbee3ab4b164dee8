import Verif.Clauses.GoalDefs
import Verif.Clauses.PreprocProof

/-!
# Definitions for goal terms: proofs
-/

namespace Verif.GoalDefsProof
open SemProof Props CNFProof PreprocProof

universe u

variable {sg : Sig} {n0 n : Nat}

/-- A ground well-typed term over the symbols below `n`. -/
structure GT (sg : Sig) (n : Nat) (t : Term) : Prop where
  wt : sg.WT t
  gr : t.vars = []
  bl : t.SymsBelow n

theorem gt_mono {m : Nat} (h : n ≤ m) {t : Term} (ht : GT sg n t) : GT sg m t := ⟨ht.wt, ht.gr, symsBelow_mono h _ ht.bl⟩

theorem gt_args {f : Nat} {ts : List Term} (h : GT sg n (.app f ts)) : ∀ t ∈ ts, GT sg n t := by
  intro t ht
  refine ⟨(Sig.wt_app.1 h.wt).2 t ht, ?_, (Term.symsBelow_app.1 h.bl).2 t ht⟩
  have := h.gr
  rw [Term.vars, Term.varsL_eq] at this
  exact List.flatMap_eq_nil_iff.1 this t ht

/-- The tree of definitions is right: keys and constants are ground, and the definition is among the clauses. -/
structure DefsOK (sg : Sig) (n0 n : Nat) (s : GdSt) : Prop where
  key : ∀ p ∈ s.defs, GT sg n p.1 ∧ GT sg n p.2 ∧ sg.ty p.1 = sg.ty p.2
  cl : ∀ p ∈ s.defs, [mkEqn true p.1 p.2] ∈ s.out
  new : ∀ p ∈ s.defs, ∃ k, p.2 = .app k [] ∧ CodesIn n0 n k

theorem mem_of_lookup {l : List (Term × Term)} {a b : Term} (h : l.lookup a = some b) : (a, b) ∈ l := by
  induction l with
  | nil => simp at h
  | cons p l ih =>
    obtain ⟨k, c⟩ := p
    rw [List.lookup_cons] at h
    split at h
    · rename_i e
      simp only [Option.some.injEq] at h
      rw [eq_of_beq e, h]; exact List.mem_cons_self ..
    · exact List.mem_cons_of_mem _ (ih h)

theorem gdNFs_eq (defs : List (Term × Term)) (ts : List Term) : gdNFs defs ts = ts.map (gdNF defs) := by
  induction ts with
  | nil => rfl
  | cons t ts ih => rw [gdNFs, ih, List.map_cons]

theorem gdNF_ok {s : GdSt} (h : DefsOK sg n0 n s) (t : Term) (ht : GT sg n t) : GT sg n (gdNF s.defs t) ∧ sg.ty (gdNF s.defs t) = sg.ty t := by
  induction t using Term.ind with
  | hv x => exact ⟨ht, rfl⟩
  | ha f ts ih =>
    rw [gdNF]
    split
    · exact ⟨ht, rfl⟩
    · split
      · rename_i c hc
        have := h.key _ (mem_of_lookup hc)
        exact ⟨this.2.1, this.2.2.symm⟩
      · have hn : GT sg n (.app f (gdNFs s.defs ts)) := by
          rw [gdNFs_eq]
          have hw := Sig.wt_app.1 ht.wt
          have ha := gt_args ht
          refine ⟨?_, ?_, ?_⟩
          · rw [Sig.wt_app]
            refine ⟨?_, fun t' h' => ?_⟩
            · rw [← hw.1, List.map_map]
              exact List.map_congr_left fun t h' => (ih t h' (ha t h')).2
            · obtain ⟨t, h1, rfl⟩ := List.mem_map.1 h'
              exact (ih t h1 (ha t h1)).1.wt
          · rw [Term.vars, Term.varsL_eq, List.flatMap_eq_nil_iff]
            intro t' h'
            obtain ⟨t, h1, rfl⟩ := List.mem_map.1 h'
            exact (ih t h1 (ha t h1)).1.gr
          · rw [Term.symsBelow_app]
            refine ⟨(Term.symsBelow_app.1 ht.bl).1, fun t' h' => ?_⟩
            obtain ⟨t, h1, rfl⟩ := List.mem_map.1 h'
            exact (ih t h1 (ha t h1)).1.bl
        cases e : s.defs.lookup (.app f (gdNFs s.defs ts)) with
        | none => exact ⟨hn, rfl⟩
        | some c =>
          have := h.key _ (mem_of_lookup e)
          exact ⟨this.2.1, this.2.2.symm⟩

/-- In models of the definitions, a term is equal to its normal form. -/
theorem gdNF_eval (hs : SigOK sg) {s : GdSt} (h : DefsOK sg n0 n s) (I : Interp.{u} sg) (hI : ∀ D ∈ s.out, I.Models D) {v : Nat → I.D} (hv : I.Sorted v) (t : Term)
    (ht : GT sg n t) : I.eval v (gdNF s.defs t) = I.eval v t := by
  have hd : ∀ {a c : Term}, s.defs.lookup a = some c → I.eval v c = I.eval v a := by
    intro a c hc
    have hm := mem_of_lookup hc
    have hk := h.key _ hm
    have := hI _ (h.cl _ hm) v hv
    rw [clauseTrue_cons, mkEqn_true hs I hv (l := a) (r := c) ⟨hk.1.wt, hk.2.1.wt, hk.2.2⟩] at this
    simp only [Interp.LitTrue, if_true, Interp.ClauseTrue, List.not_mem_nil, false_and, exists_false, or_false] at this
    exact this.symm
  induction t using Term.ind with
  | hv x => rfl
  | ha f ts ih =>
    rw [gdNF]
    split
    · rfl
    · split
      · rename_i c hc; exact hd hc
      · have e1 : I.eval v (.app f (gdNFs s.defs ts)) = I.eval v (.app f ts) := by
          rw [gdNFs_eq, eval_app, eval_app, List.map_map]
          exact congrArg _ (List.map_congr_left fun t h' => ih t h' (gt_args ht t h'))
        cases e : s.defs.lookup (.app f (gdNFs s.defs ts)) with
        | none => exact e1
        | some c => exact (hd e).trans e1

/-- Interpretation of a new constant by the value of a ground term. -/
theorem name_conv (hs : SigOK sg) (hn : 2 < n) {Ds : List (List Lit)} (hD : SetOK sg n Ds) {l : Term} (hl : GT sg n l) (ha : sg.fargs n = []) (ht : sg.fty n = sg.ty l) (hd : ¬ sg.distinct n) :
    SetOK sg (n + 1) (Ds ++ [[mkEqn true l (.app n [])]]) ∧ Converts.{u} sg (· = n) Ds (Ds ++ [[mkEqn true l (.app n [])]]) := by
  have hw : sg.WTLit ⟨true, l, .app n []⟩ := ⟨hl.wt, by rw [Sig.wt_app]; exact ⟨ha.symm, by simp⟩, ht.symm⟩
  constructor
  · intro C hC
    rcases List.mem_append.1 hC with hC | hC
    · exact ⟨(hD C hC).1, fun L hL => ⟨symsBelow_mono (Nat.le_succ n) _ ((hD C hC).2 L hL).1, symsBelow_mono (Nat.le_succ n) _ ((hD C hC).2 L hL).2⟩⟩
    · rw [List.mem_singleton.1 hC]
      refine ⟨fun L hL => ?_, fun L hL => ?_⟩
      · rw [List.mem_singleton.1 hL]; exact mkEqn_wt hs hw
      · rw [List.mem_singleton.1 hL]
        refine mkEqn_below (by omega) (symsBelow_mono (Nat.le_succ n) _ hl.bl) ?_
        rw [Term.symsBelow_app]; exact ⟨by omega, by simp⟩
  · intro I hI
    obtain ⟨w, hw'⟩ : ∃ w : Nat → I.D, I.Sorted w := ⟨fun x => (I.inhab (sg.vty x)).choose, fun x => (I.inhab (sg.vty x)).choose_spec⟩
    have hF := fnOK_update I hn hd (fun _ => I.eval w l) fun _ => by rw [ht]; exact eval_mem I hw' hl.wt
    refine ⟨_, hF, fun s h => if_neg h, ?_⟩
    intro D hD'
    rcases List.mem_append.1 hD' with hD' | hD'
    · exact (models_reint I hF (fun s h => if_neg (Nat.ne_of_lt h)) (hD D hD').2).2 (hI D hD')
    · rw [List.mem_singleton.1 hD']
      intro v hv
      rw [clauseTrue_cons, mkEqn_true hs _ hv hw]
      left
      simp only [Interp.LitTrue, if_true]
      have e1 : (I.reint _ hF).eval v (.app n []) = I.eval w l := (eval_app (I.reint _ hF) v n []).trans (congrFun (if_pos rfl) [])
      have e2 : (I.reint _ hF).eval v l = I.eval v l := eval_reint I hF (fun s h => if_neg (Nat.ne_of_lt h)) v l hl.bl
      have e3 : I.eval v l = I.eval w l := eval_congr I fun x hx => by rw [hl.gr] at hx; cases hx
      exact e2.trans (e3.trans e1.symm)

/-! ## Sequences of definitions -/

/-- Definitions for terms in `P`, one after the other. -/
inductive Steps (sg : Sig) (P : Term → Prop) : GdSt → GdSt → Prop
  | refl (s : GdSt) : Steps sg P s s
  | tail {s s' : GdSt} {t : Term} (h : Steps sg P s s') (ht : P t) : Steps sg P s (gdDefine sg t s')

theorem Steps.trans {P : Term → Prop} {s s' s'' : GdSt} (h : Steps sg P s s') (h' : Steps sg P s' s'') : Steps sg P s s'' := by
  induction h' with
  | refl => exact h
  | tail _ ht ih => exact .tail ih ht

theorem rek_steps {P : Term → Prop} (hP : ∀ f ts, P (.app f ts) → ∀ t ∈ ts, P t) (t : Term) : P t → ∀ s, Steps sg P s (gdRekDefine sg t s) := by
  induction t using Term.ind with
  | hv x => exact fun _ s => .refl s
  | ha f ts ih =>
    intro ht s
    rw [gdRekDefine]
    split
    · exact .refl s
    · have key : ∀ us : List Term, (∀ u ∈ us, u ∈ ts) → ∀ s, Steps sg P s (gdRekDefines sg us s) := by
        intro us
        induction us with
        | nil => exact fun _ s => .refl s
        | cons u us ihu =>
          intro hu s
          rw [gdRekDefines]
          have h1 : u ∈ ts := hu u (List.mem_cons_self ..)
          exact (ih u h1 (hP f ts ht u h1) s).trans (ihu (fun w hw => hu w (List.mem_cons_of_mem _ hw)) _)
      exact .tail (key ts (fun _ h => h) s) ht

theorem goal_steps {P : Term → Prop} (hP : ∀ f ts, P (.app f ts) → ∀ t ∈ ts, P t) {all : Bool} {t : Term} (ht : P t) (s : GdSt) : Steps sg P s (gdGoal sg all s t) := by
  unfold gdGoal
  split
  · split
    · exact rek_steps hP t ht s
    · exact .tail (.refl s) ht
  · exact .refl s

theorem goals_steps {P : Term → Prop} (hP : ∀ f ts, P (.app f ts) → ∀ t ∈ ts, P t) {all : Bool} (gs : List Term) : (∀ t ∈ gs, P t) → ∀ s, Steps sg P s (gs.foldl (gdGoal sg all) s) := by
  induction gs with
  | nil => exact fun _ s => .refl s
  | cons g gs ih => exact fun h s => (goal_steps hP (h g (List.mem_cons_self ..)) s).trans (ih (fun t ht => h t (List.mem_cons_of_mem _ ht)) _)

theorem define_mono (t : Term) (s : GdSt) : s.out <+: (gdDefine sg t s).out ∧ s.decls <+: (gdDefine sg t s).decls ∧ s.next ≤ (gdDefine sg t s).next := by
  unfold gdDefine
  split
  · exact ⟨List.prefix_rfl, List.prefix_rfl, Nat.le_refl _⟩
  · exact ⟨List.prefix_append .., List.prefix_append .., Nat.le_succ _⟩

theorem steps_mono {P : Term → Prop} {s s' : GdSt} (h : Steps sg P s s') : s.out <+: s'.out ∧ s.decls <+: s'.decls ∧ s.next ≤ s'.next := by
  induction h with
  | refl => exact ⟨List.prefix_rfl, List.prefix_rfl, Nat.le_refl _⟩
  | @tail s' t h ht ih =>
    obtain ⟨h1, h2, h3⟩ := define_mono (sg := sg) t s'
    exact ⟨ih.1.trans h1, ih.2.1.trans h2, ih.2.2.trans h3⟩

theorem declared_prefix {a b : List SymDecl} (h : a <+: b) (hb : SymsDeclared sg b) : SymsDeclared sg a := fun d hd => hb d (h.subset hd)

/-- The invariant. -/
structure Inv (sg : Sig) (Cs : List (List Lit)) (n0 : Nat) (s : GdSt) : Prop where
  le : n0 ≤ s.next
  set : SetOK sg s.next (Cs ++ s.out)
  defs : DefsOK sg n0 s.next s
  codes : s.decls.map SymDecl.code = List.range' n0 (s.next - n0)
  conv : Converts.{u} sg (CodesIn n0 s.next) Cs (Cs ++ s.out)

theorem define_inv (hs : SigOK sg) (hn : 2 < n0) {Cs : List (List Lit)} {s : GdSt} (h : Inv.{u} sg Cs n0 s) {t : Term} (ht : GT sg n0 t)
    (hd : SymsDeclared sg (gdDefine sg t s).decls) : Inv.{u} sg Cs n0 (gdDefine sg t s) := by
  unfold gdDefine at hd ⊢
  split
  · exact h
  · rename_i hc
    rw [if_neg hc] at hd
    obtain ⟨h1, h2, h3, h4, h5⟩ := h
    obtain ⟨a1, a2⟩ := gdNF_ok h3 t (gt_mono h1 ht)
    obtain ⟨b1, b2, b3⟩ := hd ⟨s.next, [], sg.ty t⟩ (by simp)
    simp only at b1 b2 b3
    obtain ⟨c1, c2⟩ := name_conv.{u} hs (by omega : 2 < s.next) h2 a1 b1 (b2.trans a2.symm) b3
    have hnew : CodesIn n0 (s.next + 1) s.next := ⟨h1, by omega⟩
    refine ⟨Nat.le_succ_of_le h1, ?_, ⟨?_, ?_, ?_⟩, ?_, ?_⟩
    · simpa only [← List.append_assoc] using c1
    · intro p hp
      have old : ∀ p ∈ s.defs, GT sg (s.next + 1) p.1 ∧ GT sg (s.next + 1) p.2 ∧ sg.ty p.1 = sg.ty p.2 := fun p hp =>
        ⟨gt_mono (Nat.le_succ _) (h3.key p hp).1, gt_mono (Nat.le_succ _) (h3.key p hp).2.1, (h3.key p hp).2.2⟩
      simp only at hp
      split at hp
      · exact old p hp
      · rcases List.mem_cons.1 hp with rfl | hp
        · refine ⟨gt_mono (Nat.le_succ _) a1, ⟨?_, ?_, ?_⟩, (b2.trans a2.symm).symm⟩
          · rw [Sig.wt_app]; exact ⟨b1.symm, by simp⟩
          · simp [Term.vars, Term.varsL]
          · rw [Term.symsBelow_app]; exact ⟨Nat.lt_succ_self _, by simp⟩
        · exact old p hp
    · intro p hp
      simp only at hp ⊢
      split at hp
      · exact List.mem_append_left _ (h3.cl p hp)
      · rcases List.mem_cons.1 hp with rfl | hp
        · simp
        · exact List.mem_append_left _ (h3.cl p hp)
    · intro p hp
      have old : ∀ p ∈ s.defs, ∃ k, p.2 = .app k [] ∧ CodesIn n0 (s.next + 1) k := fun p hp => by
        obtain ⟨k, e, hk⟩ := h3.new p hp
        exact ⟨k, e, hk.1, by have := hk.2; omega⟩
      simp only at hp
      split at hp
      · exact old p hp
      · rcases List.mem_cons.1 hp with rfl | hp
        · exact ⟨_, rfl, hnew⟩
        · exact old p hp
    · simp only [List.map_append, h4, List.map_cons, List.map_nil]
      rw [show s.next + 1 - n0 = (s.next - n0) + 1 by omega, List.range'_concat]
      congr 2
      omega
    · have k1 := conv_mono h5 (B := CodesIn n0 (s.next + 1)) fun k hk => ⟨hk.1, by have := hk.2; omega⟩
      have k2 := conv_mono c2 (B := CodesIn n0 (s.next + 1)) fun k hk => hk ▸ hnew
      simpa only [← List.append_assoc] using conv_trans k1 k2

theorem steps_inv (hs : SigOK sg) (hn : 2 < n0) {Cs : List (List Lit)} {s s' : GdSt} (h : Steps sg (GT sg n0) s s') (hi : Inv.{u} sg Cs n0 s) :
    SymsDeclared sg s'.decls → Inv.{u} sg Cs n0 s' := by
  induction h with
  | refl => exact fun _ => hi
  | @tail s' t h ht ih => exact fun hd => define_inv hs hn (ih (declared_prefix (define_mono t s').2.1 hd)) ht hd

/-- The term has a name among the constants from `n0` to `n`. -/
def Named (sg : Sig) (n0 n : Nat) (Ds : List (List Lit)) (t : Term) : Prop :=
  ∃ k, CodesIn n0 n k ∧ Entails.{u} sg Ds [mkEqn true t (.app k [])]

/-- Goals are named. -/
theorem define_named (hs : SigOK sg) (hn : 2 < n0) {Cs : List (List Lit)} {s : GdSt} (h : Inv.{u} sg Cs n0 s) {t : Term} (ht : GT sg n0 t) (hc : t.isConst = false)
    (hd : SymsDeclared sg (gdDefine sg t s).decls) : Named.{u} sg n0 (gdDefine sg t s).next (gdDefine sg t s).out t := by
  have hi := define_inv hs hn h ht hd
  cases hl : s.defs.lookup t with
  | some c =>
    have e : gdDefine sg t s = s := by simp [gdDefine, hl]
    rw [e]
    have hm := mem_of_lookup hl
    obtain ⟨k, hk, hk'⟩ := h.defs.new _ hm
    have := h.defs.cl _ hm
    simp only at hk this
    rw [hk] at this
    exact ⟨k, hk', fun I hI => hI _ this⟩
  | none =>
    have e : gdDefine sg t s = _ := if_neg (by simp [hl, hc])
    rw [e] at hd ⊢
    obtain ⟨b1, b2, b3⟩ := hd ⟨s.next, [], sg.ty t⟩ (by simp)
    simp only at b1 b2 b3 ⊢
    obtain ⟨a1, a2⟩ := gdNF_ok h.defs t (gt_mono h.le ht)
    have hcw : sg.WT (.app s.next []) := by rw [Sig.wt_app]; exact ⟨b1.symm, by simp⟩
    refine ⟨s.next, ⟨h.le, Nat.lt_succ_self _⟩, fun I hI v hv => ?_⟩
    have h1 := hI _ (List.mem_append_right _ (List.mem_singleton.2 rfl)) v hv
    rw [clauseTrue_cons, mkEqn_true hs I hv ⟨a1.wt, hcw, a2.trans b2.symm⟩] at h1
    rw [clauseTrue_cons, mkEqn_true hs I hv ⟨ht.wt, hcw, b2.symm⟩]
    simp only [Interp.LitTrue, if_true, Interp.ClauseTrue, List.not_mem_nil, false_and, exists_false, or_false] at h1 ⊢
    rw [← h1, gdNF_eval hs h.defs I (fun D hD => hI D (List.mem_append_left _ hD)) hv t (gt_mono h.le ht)]

theorem named_mono {m m' : Nat} {Ds Es : List (List Lit)} (hm : m ≤ m') (h : Ds <+: Es) {t : Term} (ht : Named.{u} sg n0 m Ds t) : Named.{u} sg n0 m' Es t := by
  obtain ⟨k, h1, h2⟩ := ht
  exact ⟨k, ⟨h1.1, Nat.lt_of_lt_of_le h1.2 hm⟩, fun I hI => h2 I fun D hD => hI D (h.subset hD)⟩

theorem gt_closed (f : Nat) (ts : List Term) (h : GT sg n0 (.app f ts)) : ∀ t ∈ ts, GT sg n0 t := gt_args h

theorem goals_named (hs : SigOK sg) (hn : 2 < n0) {Cs : List (List Lit)} {all : Bool} (gs : List Term) : ∀ {s : GdSt}, Inv.{u} sg Cs n0 s → (∀ t ∈ gs, GT sg n0 t ∧ t.isConst = false) →
    SymsDeclared sg (gs.foldl (gdGoal sg all) s).decls → ∀ t ∈ gs, Named.{u} sg n0 (gs.foldl (gdGoal sg all) s).next (gs.foldl (gdGoal sg all) s).out t := by
  induction gs with
  | nil => intro s _ _ _ t ht; cases ht
  | cons g gs ih =>
    intro s hi hg hd t ht
    rw [List.foldl_cons] at hd ⊢
    have hg1 := hg g (List.mem_cons_self ..)
    have hg2 := fun t ht => hg t (List.mem_cons_of_mem _ ht)
    have st := goal_steps (sg := sg) gt_closed (all := all) hg1.1 s
    have rest := goals_steps (sg := sg) gt_closed (all := all) gs (fun t ht => (hg2 t ht).1) (gdGoal sg all s g)
    have hd1 := declared_prefix (steps_mono rest).2.1 hd
    have hi1 := steps_inv hs hn st hi hd1
    rcases List.mem_cons.1 ht with rfl | ht
    · refine named_mono (steps_mono rest).2.2 (steps_mono rest).1 ?_
      cases hl : s.defs.lookup t with
      | some c =>
        have e : gdGoal sg all s t = gdDefine sg t s := by simp [gdGoal, gdDefine, hl]
        rw [e] at hd1 ⊢
        exact define_named hs hn hi hg1.1 hg1.2 hd1
      | none =>
        cases all with
        | false =>
          have e : gdGoal sg false s t = gdDefine sg t s := by simp [gdGoal, hl, hg1.2]
          rw [e] at hd1 ⊢
          exact define_named hs hn hi hg1.1 hg1.2 hd1
        | true =>
          have e : gdGoal sg true s t = gdRekDefine sg t s := by simp [gdGoal, hl, hg1.2]
          rw [e] at hd1 ⊢
          match t, hg1, hd1 with
          | .app f ts, hg1, hd1 =>
            have hne : ts.isEmpty = false := hg1.2
            rw [gdRekDefine, if_neg (by simp [hne])] at hd1 ⊢
            refine define_named hs hn (steps_inv hs hn (s := s) ?_ hi (declared_prefix (define_mono _ _).2.1 hd1)) hg1.1 hg1.2 hd1
            have key : ∀ us : List Term, (∀ u ∈ us, GT sg n0 u) → ∀ s, Steps sg (GT sg n0) s (gdRekDefines sg us s) := by
              intro us
              induction us with
              | nil => exact fun _ s => .refl s
              | cons u us ihu =>
                intro hu s
                rw [gdRekDefines]
                exact (rek_steps gt_closed u (hu u (List.mem_cons_self ..)) s).trans (ihu (fun w hw => hu w (List.mem_cons_of_mem _ hw)) _)
            exact key ts (gt_args hg1.1) s
    · exact ih hi1 hg2 hd t ht

end Verif.GoalDefsProof
