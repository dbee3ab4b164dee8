import Verif.HO.HoInferSpec
import Mathlib.Data.List.Forall2
import Mathlib.Tactic.Tauto

/-!
# Soundness of the higher-order inferences
-/

namespace Verif
namespace HoInf

variable {G : Nat → HTy}

/-! ## Types and values -/

theorem tyApp_append (as : List HTy) : ∀ (t : HTy) (bs : List HTy), tyApp t (as ++ bs) = (tyApp t as).bind fun u => tyApp u bs := by
  induction as with
  | nil => intro t bs; simp [tyApp]
  | cons a as ih =>
    intro t bs
    cases t with
    | base n => simp [tyApp]
    | arr c d =>
      simp only [List.cons_append, tyApp]
      split
      · exact ih d bs
      · rfl

theorem tyApp_one {t a u : HTy} : tyApp t [a] = some u ↔ t = .arr a u := by
  cases t with
  | base n => simp [tyApp]
  | arr c d =>
    simp only [tyApp]
    split
    · rename_i h; subst h; simp
    · rename_i h; simp [h]

theorem tyApp1_some {t u : HTy} {ss : List HTy} : tyApp1 t ss = some u ↔ ss ≠ [] ∧ tyApp t ss = some u := by
  unfold tyApp1
  cases ss <;> simp

theorem tysOf_append (as : List HTm) : ∀ (bs : List HTm), tysOf G (as ++ bs) = (tysOf G as).bind fun s => (tysOf G bs).map (s ++ ·) := by
  induction as with
  | nil => intro bs; simp [tysOf]
  | cons a as ih =>
    intro bs
    simp only [List.cons_append, tysOf, ih]
    cases tyOf G a <;> simp
    cases tysOf G as <;> simp
    cases tysOf G bs <;> simp

theorem vals_eq_map (M : HInt G) (v : M.Val) (as : List HTm) : M.vals v as = as.map (M.val v) := by
  induction as with
  | nil => rfl
  | cons a as ih => rw [HInt.vals, ih]; rfl

theorem apps_append (M : HInt G) (d : M.D) (as : List M.D) (x : M.D) : M.apps d (as ++ [x]) = M.app (M.apps d as) x := by
  simp [HInt.apps, List.foldl_append]

theorem apps_mem (M : HInt G) (ds : List M.D) : ∀ {t u : HTy} {ss : List HTy} {d : M.D}, M.mem t d → List.Forall₂ M.mem ss ds → tyApp t ss = some u →
    M.mem u (M.apps d ds) := by
  induction ds with
  | nil => intro t u ss d hd hs h; cases hs; rw [tyApp] at h; cases h; exact hd
  | cons x ds ih =>
    intro t u ss d hd hs h
    cases hs with
    | cons h1 h2 =>
      cases t with
      | base n => simp [tyApp] at h
      | arr a b =>
        rw [tyApp] at h
        split at h
        · rename_i he; subst he
          exact ih (d := M.app d x) (M.app_mem hd h1) h2 h
        · cases h

theorem val_mem (M : HInt G) {v : M.Val} (hv : M.Typed v) (t : HTm) : ∀ {τ : HTy}, tyOf G t = some τ → M.mem τ (M.val v t) := by
  induction t using HTm.rec (motive_2 := fun as => (∀ {ss : List HTy}, tysOf G as = some ss → List.Forall₂ M.mem ss (M.vals v as)) ∧
      ∀ {τ : HTy}, tyOf G (.papp as) = some τ → M.mem τ (M.val v (.papp as))) with
  | var x τ => intro σ h; rw [tyOf] at h; cases h; exact hv x τ
  | fn f as ih =>
    intro τ h
    rw [tyOf] at h
    obtain ⟨ss, h1, h2⟩ := Option.bind_eq_some_iff.1 h
    rw [HInt.val]
    exact apps_mem M _ (M.I_mem f) (ih.1 h1) h2
  | papp as ih => intro τ h; exact ih.2 h
  | nil =>
    refine ⟨?_, ?_⟩
    · intro ss h; rw [tysOf] at h; cases h; exact .nil
    · intro τ h; rw [tyOf] at h; cases h
  | cons t ts ih1 ih2 =>
    refine ⟨?_, ?_⟩
    · intro ss h
      rw [tysOf] at h
      obtain ⟨σ, h1, h2⟩ := Option.bind_eq_some_iff.1 h
      obtain ⟨rs, h3, rfl⟩ := Option.map_eq_some_iff.1 h2
      rw [HInt.vals]
      exact .cons (ih1 h1) (ih2.1 h3)
    · intro τ h
      rw [tyOf] at h
      obtain ⟨σ, h1, h2⟩ := Option.bind_eq_some_iff.1 h
      obtain ⟨ss, h3, h4⟩ := Option.bind_eq_some_iff.1 h2
      rw [HInt.val]
      exact apps_mem M _ (ih1 h1) (ih2.1 h3) (tyApp1_some.1 h4).2

theorem applyArg_val (M : HInt G) (v : M.Val) {s a : HTm} {τ : HTy} (hs : tyOf G s = some τ) : M.val v (applyArg s a) = M.app (M.val v s) (M.val v a) := by
  cases s with
  | var x σ => rfl
  | fn f as => rw [applyArg, HInt.val, HInt.val, vals_eq_map, vals_eq_map, List.map_append, List.map_singleton, apps_append]
  | papp as =>
    cases as with
    | nil => rw [tyOf] at hs; cases hs
    | cons h as => rw [applyArg, List.cons_append, HInt.val, HInt.val, vals_eq_map, vals_eq_map, List.map_append, List.map_singleton, apps_append]

theorem applyArg_ty {s a : HTm} {α β : HTy} (hs : tyOf G s = some (.arr α β)) (ha : tyOf G a = some α) : tyOf G (applyArg s a) = some β := by
  have h1 : tysOf G [a] = some [α] := by simp [tysOf, ha]
  have key : ∀ {t : HTy} {as : List HTm}, ((tysOf G as).bind (tyApp t)) = some (.arr α β) → (tysOf G (as ++ [a])).bind (tyApp t) = some β := by
    intro t as h
    obtain ⟨ss, h2, h3⟩ := Option.bind_eq_some_iff.1 h
    rw [tysOf_append, h2, h1]
    simp only [Option.bind_some, Option.map_some, tyApp_append, h3]
    exact tyApp_one.2 rfl
  cases s with
  | var x σ =>
    rw [tyOf] at hs
    cases hs
    rw [applyArg, tyOf, tyOf, h1]
    simp only [Option.bind_some]
    exact tyApp1_some.2 ⟨by simp, tyApp_one.2 rfl⟩
  | fn f as => rw [tyOf] at hs; rw [applyArg, tyOf]; exact key hs
  | papp as =>
    cases as with
    | nil => rw [tyOf] at hs; cases hs
    | cons h as =>
      rw [tyOf] at hs
      obtain ⟨t, h2, h3⟩ := Option.bind_eq_some_iff.1 hs
      obtain ⟨ss, h4, h5⟩ := Option.bind_eq_some_iff.1 h3
      rw [applyArg, List.cons_append, tyOf, h2, Option.bind_some, tysOf_append, h4, h1, Option.bind_some, Option.map_some, Option.bind_some]
      refine tyApp1_some.2 ⟨by simp, ?_⟩
      rw [tyApp_append, (tyApp1_some.1 h5).2, Option.bind_some]
      exact tyApp_one.2 rfl

/-! ## Variables -/

def updVal {D : Type} (v : Nat → HTy → D) (x : Nat) (τ : HTy) (d : D) : Nat → HTy → D := fun y σ => if y = x ∧ σ = τ then d else v y σ

theorem updVal_typed {M : HInt G} {v : M.Val} (hv : M.Typed v) {x : Nat} {τ : HTy} {d : M.D} (hd : M.mem τ d) : M.Typed (updVal v x τ d) := by
  intro y σ
  unfold updVal
  split
  · rename_i h; rw [h.2]; exact hd
  · exact hv y σ

theorem val_upd (M : HInt G) (v : M.Val) {x : Nat} {τ : HTy} (d : M.D) (t : HTm) : hasVar x τ t = false → M.val (updVal v x τ d) t = M.val v t := by
  induction t using HTm.rec (motive_2 := fun as => hasVarL x τ as = false → M.vals (updVal v x τ d) as = M.vals v as ∧
      M.val (updVal v x τ d) (.papp as) = M.val v (.papp as)) with
  | var y σ =>
    intro h
    rw [hasVar] at h
    have h : ¬ (y = x ∧ σ = τ) := by simpa using h
    rw [HInt.val, HInt.val, updVal, if_neg h]
  | fn f as ih => intro h; rw [hasVar] at h; rw [HInt.val, HInt.val, (ih h).1]
  | papp as ih => intro h; rw [hasVar] at h; exact (ih h).2
  | nil => exact ⟨rfl, rfl⟩
  | cons t ts ih1 ih2 =>
    rename_i h
    rw [hasVarL, Bool.or_eq_false_iff] at h
    exact ⟨by rw [HInt.vals, HInt.vals, ih1 h.1, (ih2 h.2).1], by rw [HInt.val, HInt.val, ih1 h.1, (ih2 h.2).1]⟩

theorem lit_upd (M : HInt G) (v : M.Val) {x : Nat} {τ : HTy} (d : M.D) {c : HLit} (h : litHasVar x τ c = false) :
    M.LitTrue (updVal v x τ d) c ↔ M.LitTrue v c := by
  unfold litHasVar at h
  rw [Bool.or_eq_false_iff] at h
  unfold HInt.LitTrue
  rw [val_upd M v d c.l h.1]
  cases hr : c.r with
  | none => exact Iff.rfl
  | some r => rw [hr] at h; simp only [val_upd M v d r h.2]

/-! ## Argument congruence -/

theorem argCongLit_sound (M : HInt G) (rest : List HLit) (τs : List HTy) : ∀ {n : Nat} {l r : HTm} {τ : HTy}, tyOf G l = some τ → tyOf G r = some τ →
    τs = τ.args → M.Holds (⟨true, l, some r⟩ :: rest) → ∀ cl ∈ argCongLit rest n l r τs, M.Holds cl := by
  induction τs with
  | nil => intro n l r τ _ _ _ _ cl h; simp [argCongLit] at h
  | cons α τs ih =>
    intro n l r τ hl hr he h cl hcl
    cases τ with
    | base m => cases he
    | arr a b =>
      rw [HTy.args] at he
      obtain ⟨rfl, rfl⟩ : α = a ∧ τs = b.args := by injection he with h1 h2; exact ⟨h1, h2⟩
      have new : M.Holds (⟨true, applyArg l (.var n α), some (applyArg r (.var n α))⟩ :: rest) := by
        intro v hv
        obtain ⟨c, hc, ht⟩ := h v hv
        rcases List.mem_cons.1 hc with rfl | hc
        · refine ⟨_, List.mem_cons_self, ?_⟩
          simp only [HInt.LitTrue, if_true] at ht ⊢
          rw [applyArg_val M v hl, applyArg_val M v hr, ht]
        · exact ⟨c, List.mem_cons_of_mem _ hc, ht⟩
      rw [argCongLit] at hcl
      rcases List.mem_cons.1 hcl with rfl | hcl
      · exact new
      · exact ih (applyArg_ty hl rfl) (applyArg_ty hr rfl) rfl new cl hcl

theorem holds_subset {M : HInt G} {cl cl' : List HLit} (h : M.Holds cl) (hs : ∀ c ∈ cl, c ∈ cl') : M.Holds cl' := by
  intro v hv
  obtain ⟨c, hc, ht⟩ := h v hv
  exact ⟨c, hs c hc, ht⟩

theorem argCong_sound (M : HInt G) {ty : HTm → HTy} {sel : HLit → Bool} {n : Nat} (cs : List HLit) : ∀ (pre : List HLit),
    (∀ c ∈ pre ++ cs, LitTyped G c) → (∀ c ∈ cs, tyOf G c.l = some (ty c.l)) → M.Holds (pre ++ cs) → ∀ cl ∈ argCong ty sel n pre cs, M.Holds cl := by
  induction cs with
  | nil => intro pre _ _ _ cl h; simp [argCong] at h
  | cons c cs ih =>
    intro pre hT ht h cl hcl
    rw [argCong] at hcl
    rcases List.mem_append.1 hcl with hcl | hcl
    · cases hr : c.r with
      | none => rw [hr] at hcl; cases hcl
      | some r =>
        rw [hr] at hcl
        simp only at hcl
        split at hcl
        · rename_i hp
          have hpos : c.pos = true := by rw [Bool.and_eq_true] at hp; exact hp.1
          have hc := hT c (by simp)
          unfold LitTyped at hc
          rw [hr] at hc
          obtain ⟨τ, h1, h2⟩ := hc
          have h3 := ht c List.mem_cons_self
          rw [h1] at h3
          cases h3
          refine argCongLit_sound M _ _ h1 h2 rfl ?_ cl hcl
          refine holds_subset h fun d hd => ?_
          have ec : c = ⟨true, c.l, some r⟩ := by cases c; simp only at hr hpos; rw [hr, hpos]
          rw [← ec]
          simp only [List.mem_append, List.mem_cons] at hd ⊢
          tauto
        · cases hcl
    · refine ih (pre ++ [c]) ?_ (fun d hd => ht d (List.mem_cons_of_mem _ hd)) ?_ cl hcl
      · simpa using hT
      · simpa using h

/-! ## Positive extensionality -/

theorem tysOf_concat {as : List HTm} {a : HTm} {α : HTy} {ss : List HTy} (ha : tyOf G a = some α) (h : tysOf G (as ++ [a]) = some ss) :
    ∃ rs, tysOf G as = some rs ∧ ss = rs ++ [α] := by
  rw [tysOf_append] at h
  obtain ⟨rs, h1, h2⟩ := Option.bind_eq_some_iff.1 h
  obtain ⟨us, h3, rfl⟩ := Option.map_eq_some_iff.1 h2
  have : tysOf G [a] = some [α] := by simp [tysOf, ha]
  rw [this] at h3
  cases h3
  exact ⟨rs, h1, rfl⟩

theorem tyApp_concat {t τ α : HTy} {rs : List HTy} (h : tyApp t (rs ++ [α]) = some τ) : tyApp t rs = some (.arr α τ) := by
  rw [tyApp_append] at h
  obtain ⟨u, h1, h2⟩ := Option.bind_eq_some_iff.1 h
  rw [h1, tyApp_one.1 h2]

/-- A term ending in the argument `a` is the shorter term applied to `a`. -/
theorem dropLast_spec {t a : HTm} {τ α : HTy} (h : t.args.getLast? = some a) (ht : tyOf G t = some τ) (ha : tyOf G a = some α) :
    tyOf G (dropLastArg t) = some (.arr α τ) ∧ (∀ (M : HInt G) (v : M.Val), M.val v t = M.app (M.val v (dropLastArg t)) (M.val v a)) ∧
      ∀ x σ, hasVarL x σ t.args.dropLast = false → hasVar x σ (dropLastArg t) = false := by
  obtain ⟨ys, hy⟩ := List.getLast?_eq_some_iff.1 h
  cases t with
  | var x σ => simp [HTm.args] at hy
  | fn f as =>
    have hy : as = ys ++ [a] := hy
    subst hy
    rw [tyOf] at ht
    obtain ⟨ss, h1, h2⟩ := Option.bind_eq_some_iff.1 ht
    obtain ⟨rs, h3, rfl⟩ := tysOf_concat ha h1
    have e : dropLastArg (.fn f (ys ++ [a])) = .fn f ys := by rw [dropLastArg, List.dropLast_concat]
    rw [e]
    refine ⟨by rw [tyOf, h3, Option.bind_some]; exact tyApp_concat h2, fun M v => ?_, fun x σ hx => ?_⟩
    · rw [HInt.val, HInt.val, vals_eq_map, vals_eq_map, List.map_append, List.map_singleton, apps_append]
    · rw [hasVar]; simpa [HTm.args] using hx
  | papp as =>
    have hy : as = ys ++ [a] := hy
    subst hy
    cases ys with
    | nil =>
      rw [List.nil_append, tyOf, tysOf] at ht
      obtain ⟨t, _, h2⟩ := Option.bind_eq_some_iff.1 ht
      simp [tyApp1] at h2
    | cons hd bs =>
      rw [List.cons_append, tyOf] at ht
      obtain ⟨t, h1, h2⟩ := Option.bind_eq_some_iff.1 ht
      obtain ⟨ss, h3, h4⟩ := Option.bind_eq_some_iff.1 h2
      obtain ⟨rs, h5, rfl⟩ := tysOf_concat ha h3
      have h6 := tyApp_concat (tyApp1_some.1 h4).2
      cases bs with
      | nil =>
        rw [tysOf] at h5
        cases h5
        rw [tyApp] at h6
        cases h6
        refine ⟨h1, fun M v => rfl, fun x σ hx => ?_⟩
        show hasVar x σ hd = false
        simpa [HTm.args, hasVarL] using hx
      | cons b bs =>
        have e : dropLastArg (.papp (hd :: b :: bs ++ [a])) = .papp (hd :: b :: bs) := by
          cases bs with
          | nil => rfl
          | cons d ds =>
            show HTm.papp ((hd :: b :: d :: ds ++ [a]).dropLast) = _
            rw [List.dropLast_concat]
        rw [e]
        refine ⟨?_, fun M v => ?_, fun x σ hx => ?_⟩
        · rw [tyOf, h1, Option.bind_some, h5, Option.bind_some]
          refine tyApp1_some.2 ⟨?_, h6⟩
          rintro rfl
          rw [tysOf] at h5
          obtain ⟨_, _, h7⟩ := Option.bind_eq_some_iff.1 h5
          obtain ⟨_, _, h8⟩ := Option.map_eq_some_iff.1 h7
          cases h8
        · rw [List.cons_append, HInt.val, HInt.val, vals_eq_map, vals_eq_map, List.map_append, List.map_singleton, apps_append]
        · rw [hasVar]
          have : (HTm.papp (hd :: b :: bs ++ [a])).args.dropLast = hd :: b :: bs := by rw [HTm.args, List.dropLast_concat]
          rw [this] at hx
          exact hx

theorem posExtLit_sound (M : HInt G) (rest : List HLit) (n : Nat) : ∀ {l r : HTm} {τ : HTy}, tyOf G l = some τ → tyOf G r = some τ →
    M.Holds (⟨true, l, some r⟩ :: rest) → ∀ cl ∈ posExtLit rest n l r, M.Holds cl := by
  induction n with
  | zero => intro l r τ _ _ _ cl h; simp [posExtLit] at h
  | succ n ih =>
    intro l r τ hl hr h cl hcl
    rw [posExtLit] at hcl
    split at hcl
    · rename_i x σ y σ' e1 e2
      split at hcl
      · rename_i he
        obtain ⟨rfl, rfl⟩ := he
        split at hcl
        · cases hcl
        · rename_i ho
          simp only [Bool.or_eq_true, not_or, Bool.not_eq_true] at ho
          obtain ⟨⟨o1, o2⟩, o3⟩ := ho
          obtain ⟨l1, l2, l3⟩ := dropLast_spec (α := σ) e1 hl rfl
          obtain ⟨r1, r2, r3⟩ := dropLast_spec (α := σ) e2 hr rfl
          have new : M.Holds (⟨true, dropLastArg l, some (dropLastArg r)⟩ :: rest) := by
            intro v hv
            by_cases hx : ∃ c ∈ rest, M.LitTrue v c
            · obtain ⟨c, hc, ht⟩ := hx
              exact ⟨c, List.mem_cons_of_mem _ hc, ht⟩
            · refine ⟨_, List.mem_cons_self, ?_⟩
              simp only [HInt.LitTrue, if_true]
              refine M.ext (val_mem M hv _ l1) (val_mem M hv _ r1) fun d hd => ?_
              obtain ⟨c, hc, ht⟩ := h _ (updVal_typed (x := x) hv hd)
              rcases List.mem_cons.1 hc with rfl | hc
              · simp only [HInt.LitTrue, if_true] at ht
                have ev : M.val (updVal v x σ d) (.var x σ) = d := by rw [HInt.val, updVal, if_pos ⟨rfl, rfl⟩]
                rw [l2, r2, val_upd M v d _ (l3 _ _ o1), val_upd M v d _ (r3 _ _ o2), ev] at ht
                exact ht
              · refine absurd ⟨c, hc, (lit_upd M v d ?_).1 ht⟩ hx
                exact Bool.eq_false_iff.2 fun hf => by
                  have := List.any_eq_true.2 ⟨c, hc, hf⟩
                  rw [o3] at this
                  cases this
          rcases List.mem_cons.1 hcl with rfl | hcl
          · exact new
          · exact ih l1 r1 new cl hcl
      · cases hcl
    · cases hcl

theorem posExt_sound (M : HInt G) {sel : HLit → Bool} (cs : List HLit) : ∀ (pre : List HLit),
    (∀ c ∈ pre ++ cs, LitTyped G c) → M.Holds (pre ++ cs) → ∀ cl ∈ posExt sel pre cs, M.Holds cl := by
  induction cs with
  | nil => intro pre _ _ cl h; simp [posExt] at h
  | cons c cs ih =>
    intro pre hT h cl hcl
    rw [posExt] at hcl
    rcases List.mem_append.1 hcl with hcl | hcl
    · cases hr : c.r with
      | none => rw [hr] at hcl; cases hcl
      | some r =>
        rw [hr] at hcl
        simp only at hcl
        split at hcl
        · rename_i hp
          have hpos : c.pos = true := by rw [Bool.and_eq_true] at hp; exact hp.1
          have hc := hT c (by simp)
          unfold LitTyped at hc
          rw [hr] at hc
          obtain ⟨τ, h1, h2⟩ := hc
          refine posExtLit_sound M _ _ h1 h2 ?_ cl hcl
          refine holds_subset h fun d hd => ?_
          have ec : c = ⟨true, c.l, some r⟩ := by cases c; simp only at hr hpos; rw [hr, hpos]
          rw [← ec]
          simp only [List.mem_append, List.mem_cons] at hd ⊢
          tauto
        · cases hcl
    · refine ih (pre ++ [c]) ?_ ?_ cl hcl
      · simpa using hT
      · simpa using h

end HoInf
end Verif
