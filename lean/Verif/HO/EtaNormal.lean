import Verif.HO.EtaProof

/-!
# The results of eta reduction are eta-normal and well-formed
-/

namespace Verif
open Lam

namespace Lam

/-- No eta step is possible. -/
def ENormal (m : Lam) : Prop := ∀ n, ¬ Eta m n

/-- The symbol occurs. -/
def HasCn (f : Nat) : Lam → Prop
  | fv _ _ => False
  | bv _ => False
  | cn g => g = f
  | lam _ m => HasCn f m
  | app m n => HasCn f m ∨ HasCn f n

/-- The index occurs loose. -/
def Loose : Nat → Lam → Prop
  | _, fv _ _ => False
  | i, bv j => i = j
  | _, cn _ => False
  | i, lam _ m => Loose (i + 1) m
  | i, app m n => Loose i m ∨ Loose i n

theorem loose_ren (m : Lam) : ∀ {ρ : Nat → Nat} {i : Nat}, Loose i (m.ren ρ) → ∃ j, ρ j = i := by
  induction m with
  | fv => intro ρ i h; exact h.elim
  | cn => intro ρ i h; exact h.elim
  | bv j => intro ρ i h; exact ⟨j, h.symm⟩
  | lam ty m ih =>
    intro ρ i h
    obtain ⟨j, hj⟩ := ih (i := i + 1) h
    cases j with
    | zero => simp [upr] at hj
    | succ j => exact ⟨j, by simpa [upr] using hj⟩
  | app m n ih1 ih2 =>
    intro ρ i h
    rcases h with h | h
    · exact ih1 h
    · exact ih2 h

theorem loose_apps {i : Nat} (as : List Lam) : ∀ {m : Lam}, Loose i (m.apps as) ↔ Loose i m ∨ ∃ a ∈ as, Loose i a := by
  induction as with
  | nil => intro m; simp [Lam.apps]
  | cons a as ih =>
    intro m
    have : m.apps (a :: as) = (app m a).apps as := rfl
    rw [this, ih]
    simp only [Loose, List.exists_mem_cons_iff]
    tauto

theorem hasCn_apps {f : Nat} (as : List Lam) : ∀ {m : Lam}, HasCn f (m.apps as) ↔ HasCn f m ∨ ∃ a ∈ as, HasCn f a := by
  induction as with
  | nil => intro m; simp [Lam.apps]
  | cons a as ih =>
    intro m
    have : m.apps (a :: as) = (app m a).apps as := rfl
    rw [this, ih]
    simp only [HasCn, List.exists_mem_cons_iff]
    tauto

theorem hasCn_ren {f : Nat} (m : Lam) : ∀ {ρ : Nat → Nat}, HasCn f (m.ren ρ) ↔ HasCn f m := by
  induction m with
  | lam ty m ih => intro ρ; exact ih
  | app m n ih1 ih2 => intro ρ; simp only [ren, HasCn, ih1, ih2]
  | _ => intro ρ; exact .rfl

theorem hasCn_eta {f : Nat} {m n : Lam} (h : Eta m n) : HasCn f m ↔ HasCn f n := by
  induction h with
  | eta ty m => simp only [HasCn, hasCn_ren, or_false]
  | lam _ ih => exact ih
  | appL _ ih => simp only [HasCn, ih]
  | appR _ ih => simp only [HasCn, ih]

theorem hasCn_etaEq {f : Nat} {m n : Lam} (h : EtaEq m n) : HasCn f m ↔ HasCn f n := by
  induction h with
  | rel _ _ h => exact hasCn_eta h
  | refl => exact .rfl
  | symm _ _ _ ih => exact ih.symm
  | trans _ _ _ _ _ ih1 ih2 => exact ih1.trans ih2

theorem Eta.ren {m n : Lam} (h : Eta m n) : ∀ ρ : Nat → Nat, Eta (m.ren ρ) (n.ren ρ) := by
  induction h with
  | eta ty m =>
    intro ρ
    have : (m.ren Nat.succ).ren (upr ρ) = (m.ren ρ).ren Nat.succ := by rw [ren_ren, ren_ren]; rfl
    simp only [Lam.ren, this]
    exact .eta _ _
  | lam _ ih => intro ρ; exact .lam (ih _)
  | appL _ ih => intro ρ; exact .appL (ih _)
  | appR _ ih => intro ρ; exact .appR (ih _)

theorem ENormal.of_ren {m : Lam} {ρ : Nat → Nat} (h : ENormal (m.ren ρ)) : ENormal m := fun _ hn => h _ (hn.ren ρ)

theorem enormal_app {m n : Lam} : ENormal (app m n) ↔ ENormal m ∧ ENormal n := by
  constructor
  · intro h
    exact ⟨fun k hk => h _ (.appL hk), fun k hk => h _ (.appR hk)⟩
  · rintro ⟨h1, h2⟩ k hk
    cases hk with
    | appL hk => exact h1 _ hk
    | appR hk => exact h2 _ hk

theorem enormal_apps (as : List Lam) : ∀ {m : Lam}, ENormal (m.apps as) ↔ ENormal m ∧ ∀ a ∈ as, ENormal a := by
  induction as with
  | nil => intro m; simp [Lam.apps]
  | cons a as ih =>
    intro m
    have : m.apps (a :: as) = (app m a).apps as := rfl
    rw [this, ih, enormal_app, List.forall_mem_cons, and_assoc]

theorem enormal_lam {ty : HTy} {m : Lam} : ENormal (lam ty m) ↔ ENormal m ∧ ∀ q : Lam, m ≠ app (q.ren Nat.succ) (bv 0) := by
  constructor
  · intro h
    refine ⟨fun k hk => h _ (.lam hk), ?_⟩
    rintro q rfl
    exact h _ (.eta _ _)
  · rintro ⟨h1, h2⟩ k hk
    cases hk with
    | eta => exact h2 _ rfl
    | lam hk => exact h1 _ hk

theorem enormal_close : ∀ (tys : List HTy) {m : Lam}, ENormal m → (tys ≠ [] → ∀ q : Lam, m ≠ app (q.ren Nat.succ) (bv 0)) → ENormal (close tys m) := by
  intro tys
  induction tys with
  | nil => intro m h _; exact h
  | cons ty tys ih =>
    intro m h1 h2
    refine enormal_lam.2 ⟨ih h1 fun _ => h2 (by simp), ?_⟩
    cases tys with
    | nil => exact h2 (by simp)
    | cons t ts => intro q hq; simp [close] at hq

end Lam

namespace HOProof
open HTerm

/-! ## Well-formedness -/

/-- The context below several binders, the outermost first. -/
def extL : List HTy → (Nat → Option HTy) → Nat → Option HTy
  | [], Γ => Γ
  | ty :: tys, Γ => extL tys (ext ty Γ)

theorem extL_append (xs ys : List HTy) (Γ : Nat → Option HTy) : extL (xs ++ ys) Γ = extL ys (extL xs Γ) := by
  induction xs generalizing Γ with
  | nil => rfl
  | cons x xs ih => simp only [List.cons_append, extL, ih]

theorem extL_add (tys : List HTy) (Γ : Nat → Option HTy) (i : Nat) : extL tys Γ (i + tys.length) = Γ i := by
  induction tys generalizing Γ i with
  | nil => rfl
  | cons ty tys ih =>
    simp only [extL, List.length_cons]
    rw [← Nat.add_assoc, Nat.add_right_comm, ih]
    rfl

theorem wf_closeTys {tys : List HTy} {Γ : Nat → Option HTy} {m : HTerm} : WF Γ (closeTys tys m) ↔ WF (extL tys Γ) m := by
  induction tys generalizing Γ with
  | nil => exact .rfl
  | cons ty tys ih =>
    simp only [closeTys, extL]
    constructor
    · intro h
      cases h with
      | lam h => exact ih.1 h
    · intro h
      exact .lam (ih.2 h)

theorem wf_shift_neg (k : Nat) (t : HTerm) : ∀ {d : Nat} {Γ Δ : Nat → Option HTy}, WF Γ t → NoLow k d t →
    (∀ i ty, Γ (shr k d i) = some ty → Δ i = some ty) → WF Δ (t.shift (-(k : Int)) d) := by
  induction t using HTerm.ind with
  | hf x ty => intro d Γ Δ _ _ _; simp only [shift]; exact .fvar _ _
  | hd i ty =>
    intro d Γ Δ hw hn hr
    cases hw with
    | db hw =>
      simp only [shift]
      by_cases hd : d ≤ i
      · have hk : k ≤ i - d := hn _ (by simp [findMin, hd])
        have e : ((i : Int) + -(k : Int)).toNat = i - k := by omega
        simp only [if_pos hd, e]
        refine .db (hr _ _ ?_)
        simp only [shr]
        rw [if_pos (by omega), Nat.sub_add_cancel (by omega)]
        exact hw
      · simp only [if_neg hd]
        refine .db (hr _ _ ?_)
        simp only [shr, if_neg hd]
        exact hw
  | hl ty b ih =>
    intro d Γ Δ hw hn hr
    cases hw with
    | lam hw =>
      simp only [shift]
      refine .lam (ih hw (fun m hm => hn m (by simpa [findMin] using hm)) ?_)
      intro i t hi
      rw [← upr_shr] at hi
      cases i with
      | zero => exact hi
      | succ i => exact hr i t hi
  | ha f as ih =>
    intro d Γ Δ hw hn hr
    rw [noLow_app] at hn
    cases hw with
    | app hw =>
      rw [shift_app]
      refine .app fun a ha => ?_
      obtain ⟨b, hb, rfl⟩ := List.mem_map.1 ha
      exact ih b hb (hw b hb) (hn b hb) hr
  | hp h as ih1 ih2 =>
    intro d Γ Δ hw hn hr
    rw [noLow_papp] at hn
    cases hw with
    | papp hh hne hwh hwa =>
      rw [shift_papp]
      refine .papp (head_shift hh) (by simpa using hne) (ih1 hwh hn.1 hr) fun a ha => ?_
      obtain ⟨b, hb, rfl⟩ := List.mem_map.1 ha
      exact ih2 b hb (hwa b hb) (hn.2 b hb) hr

theorem wf_dropArgs {Γ : Nat → Option HTy} {m : HTerm} {k : Nat} (h : WF Γ m) (hk : ∀ h as, m = papp h as → k ≤ as.length) :
    WF Γ (dropArgs m k) := by
  cases h with
  | fvar => exact .fvar _ _
  | db h => exact .db h
  | lam h => exact .lam h
  | app h => exact .app fun a ha => h a (List.mem_of_mem_take ha)
  | @papp _ _ as h1 h2 h3 h4 =>
    have := hk _ _ rfl
    simp only [dropArgs]
    split
    · exact h3
    · refine .papp h1 ?_ h3 fun a ha => h4 a (List.mem_of_mem_take ha)
      intro he
      have h5 := congrArg List.length he
      rw [List.length_take, List.length_nil] at h5
      have h6 : as.length ≠ 0 := by simpa using h2
      omega

theorem wf_etaTop {Γ : Nat → Option HTy} {t : HTerm} (hw : WF Γ t) : WF Γ (etaTop t) := by
  unfold etaTop
  split
  rename_i tys m hu
  simp only
  split
  · exact hw
  · rename_i h0
    obtain ⟨h1, _, h3, h4⟩ := etaDrop_spec h0
    generalize etaDrop tys.length m = k at *
    have e : t = closeTys tys m := by have := unfoldLam_close t; rw [hu] at this; exact this.symm
    rw [e, wf_closeTys] at hw
    rw [wf_closeTys]
    have hd := wf_dropArgs hw h4
    unfold shiftDB
    rw [if_neg (by omega)]
    refine wf_shift_neg k _ hd h3 ?_
    intro i ty hi
    rw [show shr k 0 i = i + k by simp [shr]] at hi
    conv at hi => lhs; rw [← List.take_append_drop (tys.length - k) tys]
    rw [extL_append] at hi
    have := extL_add (tys.drop (tys.length - k)) (extL (tys.take (tys.length - k)) Γ) i
    rw [List.length_drop, show tys.length - (tys.length - k) = k by omega] at this
    rw [this] at hi
    exact hi

theorem extL_lt (a : HTy) (tys : List HTy) (Γ : Nat → Option HTy) : extL (a :: tys) Γ tys.length = some a := by
  have := extL_add tys (ext a Γ) 0
  rw [Nat.zero_add] at this
  rw [extL, this]
  rfl

theorem expArgs_ne (a b : HTy) : expArgs (.arr a b) ≠ [] := by
  cases a <;> rw [expArgs] <;> simp

theorem wf_expArgs (ty : HTy) : ∀ (Γ : Nat → Option HTy), ∀ a ∈ expArgs ty, WF (extL (tyArgs ty) Γ) a := by
  induction ty with
  | base => intro Γ a ha; simp [expArgs] at ha
  | arr a b iha ihb =>
    intro Γ t ht
    have hv : extL (tyArgs (.arr a b)) Γ (tyArity b) = some a := by rw [← tyArgs_length]; exact extL_lt a (tyArgs b) Γ
    have hb : ∀ t ∈ expArgs b, WF (extL (tyArgs (.arr a b)) Γ) t := ihb _
    generalize extL (tyArgs (.arr a b)) Γ = Δ at hv hb
    cases a with
    | base k =>
      rw [expArgs] at ht
      rcases List.mem_cons.1 ht with rfl | ht
      · exact .db hv
      · exact hb t ht
    | arr a1 a2 =>
      rw [expArgs] at ht
      rcases List.mem_cons.1 ht with rfl | ht
      · rw [wf_closeTys]
        refine .papp (.inl rfl) (expArgs_ne _ _) (.db ?_) (iha _)
        rw [← tyArgs_length (.arr a1 a2), extL_add]
        exact hv
      · exact hb t ht

theorem wf_etaExpTop {ct : Nat → HTy} {Γ : Nat → Option HTy} {t : HTerm} (hw : WF Γ t) : WF Γ (etaExpTop ct t) := by
  unfold etaExpTop
  split
  · rw [wf_closeTys]
    refine wf_applyTerms (wf_shiftDB hw ?_) (wf_expArgs _ _)
    intro i ty hi
    rw [← tyArgs_length, extL_add]
    exact hi
  · exact hw

theorem wf_quantFix {sg : HSig} {Γ : Nat → Option HTy} {t : HTerm} (hw : WF Γ t) : WF Γ (quantFix sg t) := by
  unfold quantFix
  split
  · split
    · cases hw with
      | app hw =>
        refine .app ?_
        simp only [List.forall_mem_cons]
        exact ⟨wf_etaExpTop (hw _ (.head _)), by simp⟩
    · exact hw
  · exact hw

theorem wf_doEtaExpand (ct : Nat → HTy) (t : HTerm) : ∀ {Γ : Nat → Option HTy}, WF Γ t → WF Γ (doEtaExpand ct t) := by
  induction t using HTerm.ind with
  | hf => intro Γ h; exact wf_etaExpTop h
  | hd => intro Γ h; exact wf_etaExpTop h
  | hl ty b ih =>
    intro Γ h
    simp only [doEtaExpand]
    split
    · cases h with | lam h => exact .lam (ih h)
    · exact h
  | ha f as ih =>
    intro Γ h
    simp only [doEtaExpand]
    refine wf_etaExpTop ?_
    split
    · exact h
    · cases h with
      | app h =>
        rw [doEtaExpandL_map]
        refine .app fun a ha => ?_
        obtain ⟨b, hb, rfl⟩ := List.mem_map.1 ha
        exact ih b hb (h b hb)
  | hp g as ih1 ih2 =>
    intro Γ h
    simp only [doEtaExpand]
    refine wf_etaExpTop ?_
    split
    · exact h
    · cases h with
      | papp h1 h2 h3 h4 =>
        rw [doEtaExpandL_map]
        refine .papp h1 (by simpa using h2) h3 fun a ha => ?_
        obtain ⟨b, hb, rfl⟩ := List.mem_map.1 ha
        exact ih2 b hb (h4 b hb)

theorem wf_etaExpand {ct : Nat → HTy} {Γ : Nat → Option HTy} {t : HTerm} (h : WF Γ t) : WF Γ (etaExpand ct t) := by
  unfold etaExpand
  split
  · exact wf_doEtaExpand ct t h
  · exact h

theorem wf_doEtaReduce (sg : HSig) (t : HTerm) : ∀ {Γ : Nat → Option HTy} (inner : Bool), WF Γ t → WF Γ (doEtaReduce sg inner t) := by
  induction t using HTerm.ind with
  | hf => intro Γ _ h; exact h
  | hd => intro Γ _ h; exact h
  | hl ty b ih =>
    intro Γ inner h
    cases h with
    | lam h =>
      have h1 : WF Γ (lam ty (doEtaReduce sg true b)) := .lam (ih true h)
      simp only [doEtaReduce]
      split
      · exact h1
      · exact wf_quantFix (wf_etaTop h1)
  | ha f as ih =>
    intro Γ inner h
    simp only [doEtaReduce]
    refine wf_quantFix ?_
    split
    · exact h
    · cases h with
      | app h =>
        rw [doEtaReduceL_map]
        refine .app fun a ha => ?_
        obtain ⟨b, hb, rfl⟩ := List.mem_map.1 ha
        exact ih b hb false (h b hb)
  | hp g as ih1 ih2 =>
    intro Γ inner h
    simp only [doEtaReduce]
    refine wf_quantFix ?_
    split
    · exact h
    · cases h with
      | papp h1 h2 h3 h4 =>
        rw [doEtaReduceL_map]
        refine wf_mkApp (ih1 false h3) (by simpa using h2) fun a ha => ?_
        obtain ⟨b, hb, rfl⟩ := List.mem_map.1 ha
        exact ih2 b hb false (h4 b hb)

theorem wf_etaReduce {sg : HSig} {Γ : Nat → Option HTy} {t : HTerm} (h : WF Γ t) : WF Γ (etaReduce sg t) := by
  unfold etaReduce
  split
  · exact wf_doEtaReduce sg t false h
  · exact h

/-! ## Eta-normal results -/

theorem findMin_loose (t : HTerm) : ∀ {d m : Nat}, findMin d t = some m → Loose (d + m) t.toL := by
  have hL : ∀ (as : List HTerm) {d m : Nat}, (∀ a ∈ as, ∀ {d m : Nat}, findMin d a = some m → Loose (d + m) a.toL) → findMinL d as = some m →
      ∃ a ∈ as.map toL, Loose (d + m) a := by
    intro as d m
    induction as with
    | nil => intro _ h; simp [findMinL] at h
    | cons a as ih =>
      intro h1 h2
      rw [findMinL] at h2
      cases ha : findMin d a with
      | none =>
        rw [ha] at h2
        obtain ⟨b, hb, hl⟩ := ih (fun b hb => h1 b (.tail _ hb)) h2
        exact ⟨b, .tail _ hb, hl⟩
      | some x =>
        cases hb : findMinL d as with
        | none =>
          rw [ha, hb] at h2
          exact ⟨a.toL, .head _, h1 a (.head _) (by rw [ha]; exact h2)⟩
        | some y =>
          rw [ha, hb] at h2
          simp only [minOpt, Option.some.injEq] at h2
          rcases le_total x y with h | h
          · exact ⟨a.toL, .head _, h1 a (.head _) (by rw [ha]; congr; omega)⟩
          · obtain ⟨b, hb, hl⟩ := ih (fun b hb => h1 b (.tail _ hb)) (by rw [hb]; congr; omega)
            exact ⟨b, .tail _ hb, hl⟩
  induction t using HTerm.ind with
  | hf => intro d m h; simp [findMin] at h
  | hd i ty =>
    intro d m h
    simp only [findMin] at h
    split at h
    · simp only [Option.some.injEq] at h
      simp only [toL, Loose]
      omega
    · simp at h
  | hl ty b ih =>
    intro d m h
    have := ih (d := d + 1) h
    simp only [toL, Loose]
    rwa [Nat.add_right_comm] at this
  | ha f as ih =>
    intro d m h
    simp only [toL, toLL_map, loose_apps]
    exact .inr (hL as ih h)
  | hp g as ih1 ih2 =>
    intro d m h
    simp only [toL, toLL_map, loose_apps]
    simp only [findMin] at h
    cases h1 : findMin d g with
    | none => rw [h1] at h; exact .inr (hL as ih2 h)
    | some x =>
      cases h2 : findMinL d as with
      | none => rw [h1, h2] at h; exact .inl (ih1 (by rw [h1]; exact h))
      | some y =>
        rw [h1, h2] at h
        simp only [minOpt, Option.some.injEq] at h
        rcases le_total x y with h' | h'
        · exact .inl (ih1 (by rw [h1]; congr; omega))
        · exact .inr (hL as ih2 (by rw [h2]; congr; omega))

theorem toL_bv {Γ : Nat → Option HTy} {t : HTerm} {k : Nat} (hw : WF Γ t) (h : t.toL = .bv k) : ∃ ty, t = db k ty := by
  have hap : ∀ (as : List Lam) (m : Lam) , as ≠ [] → m.apps as ≠ .bv k := by
    intro as
    induction as with
    | nil => intro m h; exact absurd rfl h
    | cons a as ih =>
      intro m _ hc
      have hc : (Lam.app m a).apps as = .bv k := hc
      by_cases hn : as = []
      · subst hn; simp [Lam.apps] at hc
      · exact ih _ hn hc
  cases hw with
  | fvar => simp [toL] at h
  | @db _ i ty => simp only [toL, Lam.bv.injEq] at h; exact ⟨ty, by rw [h]⟩
  | lam => simp [toL] at h
  | @app _ f as =>
    simp only [toL, toLL_map] at h
    by_cases hn : as = []
    · subst hn; simp [Lam.apps] at h
    · exact absurd h (hap _ _ (by simpa using hn))
  | papp _ hne =>
    simp only [toL, toLL_map] at h
    exact absurd h (hap _ _ (by simpa using hne))

theorem apps_concat (m : Lam) (as : List Lam) (a : Lam) : m.apps (as ++ [a]) = .app (m.apps as) a := by rw [apps_append]; rfl

/-- No more than the dropped arguments can be dropped. -/
theorem max_args {Γ : Nat → Option HTy} {args : List HTerm} {n lim k0 k lo : Nat} {hd : Lam} {q : Lam} (hwa : ∀ a ∈ args, WF Γ a)
    (hlim : lim = min n (args.length - lo)) (hlo : lo ≤ args.length)
    (hk : trail lim 0 args.reverse = k0)
    (hm : k = if k0 = 0 then 0 else match findMinL 0 (args.take (args.length - k0)) with | none => k0 | some i => min i k0) (hkn : k < n)
    (hne : ∀ a b, hd ≠ Lam.app a b) (hsub : ∀ a ∈ args.take lo, ∀ i, Loose i a.toL → Loose i hd) :
    hd.apps (((args.take (args.length - k)).drop lo).map toL) ≠ .app (q.ren (· + (k + 1))) (.bv k) := by
  intro hc
  have key : k ≤ k0 ∧ k0 ≤ lim ∧ ((k < k0 ∧ ∃ a ∈ args.take (args.length - k0), findMin 0 a = some k) ∨ k = lim ∨
        ∀ ty rs, args.take (args.length - k) ≠ rs ++ [db k ty]) := by
    by_cases h0 : k0 = 0
    · rw [if_pos h0] at hm
      subst hm
      subst h0
      obtain ⟨h1, bs, rest, h2, h3, h4, h5⟩ := trail_split hk
      refine ⟨le_refl _, h1, .inr ?_⟩
      rcases h5 with h5 | h5
      · exact .inl h5
      · right
        intro ty rs hcc
        rw [Nat.sub_zero, List.take_length] at hcc
        have hbs := List.eq_nil_of_length_eq_zero h3
        subst hbs
        rw [h2, List.reverse_nil, List.append_nil] at hcc
        have := congrArg List.reverse hcc
        rw [List.reverse_reverse, List.reverse_append] at this
        exact h5 ty rs.reverse (by rw [this]; rfl)
    · rw [if_neg h0] at hm
      obtain ⟨h1, h2, _, _, h5⟩ := etaDrop_args hk h0 hm
      exact ⟨h1, h2, h5⟩
  obtain ⟨hk1, hk2, hk3⟩ := key
  have hlen : k + lo ≤ args.length := by omega
  rcases List.eq_nil_or_concat ((args.take (args.length - k)).drop lo) with he | ⟨init, last, he⟩
  · rw [he] at hc
    exact hne _ _ hc
  · rw [he, List.concat_eq_append, List.map_append, List.map_cons, List.map_nil, apps_concat] at hc
    simp only [Lam.app.injEq] at hc
    have hsplit : args.take (args.length - k) = (args.take (args.length - k)).take lo ++ (init ++ [last]) := by
      rw [← List.concat_eq_append (as := init), ← he, List.take_append_drop]
    have hlast : last ∈ args := by
      refine List.mem_of_mem_take (i := args.length - k) ?_
      rw [hsplit]
      simp
    obtain ⟨ty, rfl⟩ := toL_bv (hwa _ hlast) hc.2
    rcases hk3 with ⟨hlt, a, ha, hf⟩ | hk3 | hk3
    · have hloose := findMin_loose a hf
      rw [Nat.zero_add] at hloose
      have hlen2 : ((args.take (args.length - k)).take lo ++ init).length + 1 = args.length - k := by
        have := congrArg List.length hsplit
        simp only [List.length_append, List.length_cons, List.length_nil, List.length_take] at this ⊢
        omega
      have hin : a ∈ (args.take (args.length - k)).take lo ++ init := by
        have e : args.take (args.length - k0) = ((args.take (args.length - k)).take lo ++ init).take (args.length - k0) := by
          have : args.take (args.length - k0) = (args.take (args.length - k)).take (args.length - k0) := by
            rw [List.take_take]; congr 1; omega
          rw [this]
          generalize (args.take (args.length - k)).take lo = P at hsplit hlen2 ⊢
          rw [hsplit, ← List.append_assoc, List.take_append_of_le_length (by omega)]
        rw [e] at ha
        exact List.mem_of_mem_take ha
      have : Loose k (hd.apps (init.map toL)) := by
        rw [loose_apps]
        rcases List.mem_append.1 hin with h | h
        · left
          refine hsub a ?_ k hloose
          rw [List.take_take] at h
          rwa [show min lo (args.length - k) = lo by omega] at h
        · exact .inr ⟨a.toL, List.mem_map_of_mem h, hloose⟩
      rw [hc.1] at this
      obtain ⟨j, hj⟩ := loose_ren _ this
      omega
    · have : (args.take (args.length - k)).drop lo = [] := by
        rw [List.drop_eq_nil_iff, List.length_take]; omega
      rw [this] at he
      simp at he
    · refine hk3 ty ((args.take (args.length - k)).take lo ++ init) ?_
      rw [List.append_assoc]
      exact hsplit

theorem etaDrop_max {Γ : Nat → Option HTy} {m : HTerm} {n : Nat} (hw : WF Γ m) (hl : m.isLam = false) (hk : etaDrop n m < n) (q : Lam) :
    (dropArgs m (etaDrop n m)).toL ≠ .app (q.ren (· + (etaDrop n m + 1))) (.bv (etaDrop n m)) := by
  cases hw with
  | fvar => simp [dropArgs, toL]
  | db => simp [dropArgs, toL]
  | lam => simp [isLam] at hl
  | @app _ f as h =>
    have := max_args (args := as) (lo := 0) (hd := .cn f) (q := q) (n := n) (k := etaDrop n (HTerm.app f as)) h rfl (Nat.zero_le _) rfl rfl hk
      (by simp) (by simp)
    simpa only [dropArgs, toL, toLL_map, List.drop_zero] using this
  | @papp _ h as h1 h2 h3 h4 =>
    have hle : etaDrop n (papp h as) ≤ as.length := by
      by_cases h0 : etaDrop n (papp h as) = 0
      · omega
      · exact (etaDrop_spec h0).2.2.2 _ _ rfl
    have := max_args (args := h :: as) (lo := 1) (hd := h.toL) (q := q) (n := n) (k := etaDrop n (papp h as)) (Γ := Γ)
      (by simp only [List.forall_mem_cons]; exact ⟨h3, h4⟩) rfl (by simp) rfl rfl hk
      (by intro a b; cases h <;> simp [isAnyVar, isLam, toL] at h1 ⊢) (by simp)
    rw [List.length_cons, show as.length + 1 - etaDrop n (papp h as) = (as.length - etaDrop n (papp h as)) + 1 by omega] at this
    simp only [List.take_succ_cons, List.drop_succ_cons, List.drop_zero] at this
    simp only [dropArgs]
    split
    · rename_i he
      rw [he, Nat.sub_self] at this
      rw [he]
      exact this
    · simpa only [toL, toLL_map] using this

theorem etaTop_normal {Γ : Nat → Option HTy} {t : HTerm} (hw : WF Γ t) (hm : ENormal (unfoldLam t).2.toL) : ENormal (etaTop t).toL := by
  have hnl := unfoldLam_not_lam t
  have e := unfoldLam_close t
  unfold etaTop
  split
  rename_i tys m hu
  rw [hu] at hm hnl e
  simp only at hm hnl e
  subst e
  rw [wf_closeTys] at hw
  simp only
  by_cases h0 : etaDrop tys.length m = 0
  · rw [if_pos h0, toL_closeTys]
    refine enormal_close _ hm ?_
    intro hne q hq
    have hlt : etaDrop tys.length m < tys.length := by rw [h0]; exact List.length_pos_iff.2 hne
    have := etaDrop_max hw hnl hlt q
    rw [h0] at this
    apply this
    have e2 : (dropArgs m 0).toL = m.toL := by
      cases m with
      | app => simp [dropArgs, toL]
      | papp h as =>
        simp only [dropArgs]
        split
        · rename_i ha
          have := List.eq_nil_of_length_eq_zero ha.symm
          subst this
          rfl
        · simp [toL]
      | _ => rfl
    rw [e2, hq]
  · rw [if_neg h0, toL_closeTys]
    obtain ⟨h1, h2, h3, h4⟩ := etaDrop_spec h0
    have hr := toL_shiftDB_neg h3
    refine enormal_close _ ?_ ?_
    · rw [h2, enormal_apps, hr] at hm
      exact hm.1.of_ren
    · intro hne q hq
      have hlt : etaDrop tys.length m < tys.length := by
        by_contra hc
        apply hne
        rw [show tys.length - etaDrop tys.length m = 0 by omega, List.take_zero]
      apply etaDrop_max hw hnl hlt q
      rw [hr, hq]
      simp only [Lam.ren, ren_ren, Nat.zero_add, Lam.app.injEq, and_true]
      congr 1
      funext i
      simp only [Nat.succ_eq_add_one]
      omega

theorem enormal_noLam (t : HTerm) : t.hasLam = false → ENormal t.toL := by
  have hb : ∀ i, ENormal (.bv i) := fun i n h => by cases h
  induction t using HTerm.ind with
  | hf x ty => intro _ n h; cases h
  | hd i ty => intro _; exact hb i
  | hl ty b _ => intro h; simp [hasLam] at h
  | ha f as ih =>
    intro h
    simp only [hasLam, hasLamL_any, List.any_eq_false] at h
    simp only [toL, toLL_map, enormal_apps]
    refine ⟨(fun n h => by cases h), ?_⟩
    intro a ha
    obtain ⟨b, hb, rfl⟩ := List.mem_map.1 ha
    exact ih b hb (by simpa using h b hb)
  | hp g as ih1 ih2 =>
    intro h
    simp only [hasLam, hasLamL_any, Bool.or_eq_false_iff, List.any_eq_false] at h
    simp only [toL, toLL_map, enormal_apps]
    refine ⟨ih1 h.1, ?_⟩
    intro a ha
    obtain ⟨b, hb, rfl⟩ := List.mem_map.1 ha
    exact ih2 b hb (by simpa using h.2 b hb)

theorem quantFix_none {sg : HSig} {t : HTerm} (h1 : ¬ HasCn sg.qall t.toL) (h2 : ¬ HasCn sg.qex t.toL) : quantFix sg t = t := by
  unfold quantFix
  split
  · split
    · rename_i hc
      rcases hc.1 with rfl | rfl
      · exact absurd (by simp [toL, toLL, hasCn_apps, HasCn]) h1
      · exact absurd (by simp [toL, toLL, hasCn_apps, HasCn]) h2
    · rfl
  · rfl

theorem quantFix_not_lam {sg : HSig} {t : HTerm} (h : t.isLam = false) : (quantFix sg t).isLam = false := by
  unfold quantFix
  split
  · split <;> rfl
  · exact h

theorem mkApp_not_lam (h : HTerm) (as : List HTerm) : (mkApp h as).isLam = false := by cases h <;> rfl

theorem unfoldLam_of_not_lam {t : HTerm} (h : t.isLam = false) : unfoldLam t = ([], t) := by
  cases t <;> first | rfl | simp [isLam] at h

theorem doEtaReduce_normal (sg : HSig) (t : HTerm) : ∀ {Γ : Nat → Option HTy}, WF Γ t → ¬ HasCn sg.qall t.toL → ¬ HasCn sg.qex t.toL →
    ENormal (doEtaReduce sg false t).toL ∧ ENormal (unfoldLam (doEtaReduce sg true t)).2.toL := by
  have hq : ∀ {t r : HTerm}, EtaEq t.toL r.toL → ¬ HasCn sg.qall t.toL → ¬ HasCn sg.qex t.toL → quantFix sg r = r := by
    intro t r he h1 h2
    exact quantFix_none (by rwa [← hasCn_etaEq he]) (by rwa [← hasCn_etaEq he])
  have hL : ∀ as : List HTerm, List.Forall₂ EtaEq (as.map toL) ((as.map (doEtaReduce sg false)).map toL) := by
    intro as
    rw [List.map_map]
    rw [List.forall₂_map_left_iff, List.forall₂_map_right_iff, List.forall₂_same]
    exact fun a _ => doEtaReduce_eta sg a false
  induction t using HTerm.ind with
  | hf x ty =>
    intro Γ _ _ _
    exact ⟨(fun n h => by cases h), (fun n h => by cases h)⟩
  | hd i ty =>
    intro Γ _ _ _
    exact ⟨(fun n h => by cases h), (fun n h => by cases h)⟩
  | hl ty b ih =>
    intro Γ hw h1 h2
    cases hw with
    | lam hw =>
      obtain ⟨i1, i2⟩ := ih hw h1 h2
      constructor
      · have hr : EtaEq (lam ty b).toL (etaTop (lam ty (doEtaReduce sg true b))).toL :=
          .trans _ _ _ (etaEq_lam (ty := ty) (doEtaReduce_eta sg b true)) (etaStar_eq (etaTop_star (lam ty (doEtaReduce sg true b))))
        simp only [doEtaReduce, Bool.false_eq_true, if_false]
        rw [hq hr h1 h2]
        exact etaTop_normal (.lam (wf_doEtaReduce sg b true hw)) i2
      · simp only [doEtaReduce, if_true, unfoldLam]
        exact i2
  | ha f as ih =>
    intro Γ hw h1 h2
    have hn : ∀ inner, ENormal (doEtaReduce sg inner (HTerm.app f as)).toL ∧ (doEtaReduce sg inner (HTerm.app f as)).isLam = false := by
      intro inner
      simp only [doEtaReduce]
      by_cases hc : (as.isEmpty || !hasLamL as) = true
      · rw [if_pos hc]
        refine ⟨?_, quantFix_not_lam rfl⟩
        rw [quantFix_none h1 h2]
        apply enormal_noLam
        simp only [hasLam]
        rcases Bool.or_eq_true_iff.1 hc with hc | hc
        · rw [List.isEmpty_iff] at hc; subst hc; rfl
        · simpa using hc
      · rw [if_neg hc]
        refine ⟨?_, quantFix_not_lam rfl⟩
        rw [doEtaReduceL_map]
        rw [hq (t := HTerm.app f as) (by simp only [toL, toLL_map]; exact etaEq_apps (hL as) (.refl _)) h1 h2]
        simp only [toL, toLL_map, enormal_apps]
        refine ⟨(fun n h => by cases h), ?_⟩
        intro a ha
        obtain ⟨b, hb, rfl⟩ := List.mem_map.1 ha
        obtain ⟨c, hc, rfl⟩ := List.mem_map.1 hb
        simp only [toL, toLL_map, hasCn_apps] at h1 h2
        cases hw with
        | app hw =>
          exact (ih c hc (hw c hc) (fun h => h1 (.inr ⟨_, List.mem_map_of_mem hc, h⟩)) (fun h => h2 (.inr ⟨_, List.mem_map_of_mem hc, h⟩))).1
    exact ⟨(hn false).1, by rw [unfoldLam_of_not_lam (hn true).2]; exact (hn true).1⟩
  | hp g as ih1 ih2 =>
    intro Γ hw h1 h2
    have hn : ∀ inner, ENormal (doEtaReduce sg inner (papp g as)).toL ∧ (doEtaReduce sg inner (papp g as)).isLam = false := by
      intro inner
      simp only [doEtaReduce]
      by_cases hc : (!hasLam (papp g as)) = true
      · rw [if_pos hc]
        refine ⟨?_, quantFix_not_lam rfl⟩
        rw [quantFix_none h1 h2]
        exact enormal_noLam _ (by simpa using hc)
      · rw [if_neg hc]
        refine ⟨?_, quantFix_not_lam (mkApp_not_lam _ _)⟩
        rw [doEtaReduceL_map]
        rw [hq (t := papp g as) (by rw [toL_mkApp]; simp only [toL, toLL_map]; exact etaEq_apps (hL as) (doEtaReduce_eta sg g false)) h1 h2]
        rw [toL_mkApp, enormal_apps]
        simp only [toL, toLL_map, hasCn_apps] at h1 h2
        cases hw with
        | papp w1 w2 w3 w4 =>
          refine ⟨(ih1 w3 (fun h => h1 (.inl h)) (fun h => h2 (.inl h))).1, ?_⟩
          intro a ha
          obtain ⟨b, hb, rfl⟩ := List.mem_map.1 ha
          obtain ⟨c, hc, rfl⟩ := List.mem_map.1 hb
          exact (ih2 c hc (w4 c hc) (fun h => h1 (.inr ⟨_, List.mem_map_of_mem hc, h⟩)) (fun h => h2 (.inr ⟨_, List.mem_map_of_mem hc, h⟩))).1
    exact ⟨(hn false).1, by rw [unfoldLam_of_not_lam (hn true).2]; exact (hn true).1⟩

/-- Without quantifiers only reduction steps are made. -/
theorem doEtaReduce_star (sg : HSig) (t : HTerm) : ∀ inner, ¬ HasCn sg.qall t.toL → ¬ HasCn sg.qex t.toL →
    EtaStar t.toL (doEtaReduce sg inner t).toL := by
  have hq : ∀ {t r : HTerm}, EtaStar t.toL r.toL → ¬ HasCn sg.qall t.toL → ¬ HasCn sg.qex t.toL → EtaStar t.toL (quantFix sg r).toL := by
    intro t r he h1 h2
    rw [quantFix_none (by rwa [← hasCn_etaEq (etaStar_eq he)]) (by rwa [← hasCn_etaEq (etaStar_eq he)])]
    exact he
  have hL : ∀ as : List HTerm, (∀ a ∈ as, EtaStar a.toL (doEtaReduce sg false a).toL) →
      List.Forall₂ EtaStar (as.map toL) ((as.map (doEtaReduce sg false)).map toL) := by
    intro as h
    rw [List.map_map]
    rw [List.forall₂_map_left_iff, List.forall₂_map_right_iff, List.forall₂_same]
    exact fun a ha => h a ha
  induction t using HTerm.ind with
  | hf => intro _ _ _; exact .refl
  | hd => intro _ _ _; exact .refl
  | hl ty b ih =>
    intro inner h1 h2
    have := etaStar_lam (ty := ty) (ih true h1 h2)
    simp only [doEtaReduce]
    split
    · exact this
    · refine hq (.trans this ?_) h1 h2
      exact etaTop_star (lam ty (doEtaReduce sg true b))
  | ha f as ih =>
    intro inner h1 h2
    simp only [doEtaReduce]
    refine hq ?_ h1 h2
    split
    · exact .refl
    · simp only [toL, toLL_map, hasCn_apps] at h1 h2
      simp only [toL, toLL_map, doEtaReduceL_map]
      refine etaStar_apps (hL _ fun a ha => ?_) .refl
      exact ih a ha false (fun h => h1 (.inr ⟨_, List.mem_map_of_mem ha, h⟩)) (fun h => h2 (.inr ⟨_, List.mem_map_of_mem ha, h⟩))
  | hp g as ih1 ih2 =>
    intro inner h1 h2
    simp only [doEtaReduce]
    refine hq ?_ h1 h2
    split
    · exact .refl
    · simp only [toL, toLL_map, hasCn_apps] at h1 h2
      rw [toL_mkApp]
      simp only [toL, toLL_map, doEtaReduceL_map]
      refine etaStar_apps (hL _ fun a ha => ?_) (ih1 false (fun h => h1 (.inl h)) (fun h => h2 (.inl h)))
      exact ih2 a ha false (fun h => h1 (.inr ⟨_, List.mem_map_of_mem ha, h⟩)) (fun h => h2 (.inr ⟨_, List.mem_map_of_mem ha, h⟩))

/-! ## Beta normal forms stay beta normal -/

theorem isLam_shift (s : Int) (d : Nat) (t : HTerm) : (t.shift s d).isLam = t.isLam := by
  cases t with
  | db i ty => simp only [shift]; split <;> rfl
  | app => rw [shift_app]; rfl
  | papp => rw [shift_papp]; rfl
  | _ => rfl

theorem betaRed_shift (s : Int) (t : HTerm) : ∀ d, (t.shift s d).betaRed = t.betaRed := by
  induction t using HTerm.ind with
  | hf => intro d; rfl
  | hd i ty => intro d; simp only [shift]; split <;> rfl
  | hl ty b ih => intro d; simp only [shift, betaRed, ih]
  | ha f as ih =>
    intro d
    rw [shift_app]
    simp only [betaRed, betaRedL_any, List.any_map]
    rw [Bool.eq_iff_iff]
    simp only [List.any_eq_true, Function.comp]
    exact exists_congr fun a => and_congr_right fun ha => by rw [ih a ha]
  | hp g as ih1 ih2 =>
    intro d
    rw [shift_papp]
    simp only [betaRed, betaRedL_any, List.any_map, isLam_shift, ih1]
    congr 1
    rw [Bool.eq_iff_iff]
    simp only [List.any_eq_true, Function.comp]
    exact exists_congr fun a => and_congr_right fun ha => by rw [ih2 a ha]

theorem betaRed_shiftDB (s : Int) (t : HTerm) : (t.shiftDB s).betaRed = t.betaRed := by
  unfold shiftDB; split
  · rfl
  · exact betaRed_shift s t 0

theorem isLam_shiftDB (s : Int) (t : HTerm) : (t.shiftDB s).isLam = t.isLam := by
  unfold shiftDB; split
  · rfl
  · exact isLam_shift s 0 t

theorem betaRed_closeTys (tys : List HTy) (m : HTerm) : (closeTys tys m).betaRed = m.betaRed := by
  induction tys with
  | nil => rfl
  | cons ty tys ih => simp [closeTys, betaRed, ih]

theorem betaRed_dropArgs {m : HTerm} (k : Nat) (h : m.betaRed = false) : (dropArgs m k).betaRed = false := by
  cases m with
  | app f as =>
    simp only [dropArgs, betaRed, betaRedL_any, List.any_eq_false] at h ⊢
    exact fun a ha => h a (List.mem_of_mem_take ha)
  | papp g as =>
    simp only [betaRed, betaRedL_any, Bool.or_eq_false_iff, List.any_eq_false] at h
    simp only [dropArgs]
    split
    · exact h.1.2
    · simp only [betaRed, betaRedL_any, Bool.or_eq_false_iff, List.any_eq_false]
      exact ⟨h.1, fun a ha => h.2 a (List.mem_of_mem_take ha)⟩
  | _ => exact h

theorem betaRed_etaTop {t : HTerm} (h : t.betaRed = false) : (etaTop t).betaRed = false := by
  have e := unfoldLam_close t
  unfold etaTop
  split
  rename_i tys m hu
  rw [hu] at e
  simp only at e ⊢
  split
  · exact h
  · rw [betaRed_closeTys, betaRed_shiftDB]
    apply betaRed_dropArgs
    rwa [← e, betaRed_closeTys] at h

theorem betaRed_mkApp {h : HTerm} {as : List HTerm} (hl : h.isLam = false) (h1 : h.betaRed = false) (h2 : ∀ a ∈ as, a.betaRed = false) :
    (mkApp h as).betaRed = false := by
  cases h with
  | lam => simp [isLam] at hl
  | app f bs =>
    simp only [mkApp, betaRed, betaRedL_any, List.any_append, Bool.or_eq_false_iff, List.any_eq_false] at h1 ⊢
    exact ⟨h1, fun a ha => by simpa using h2 a ha⟩
  | papp g bs =>
    simp only [mkApp, betaRed, betaRedL_any, List.any_append, Bool.or_eq_false_iff, List.any_eq_false] at h1 ⊢
    exact ⟨h1.1, h1.2, fun a ha => by simpa using h2 a ha⟩
  | fvar => exact betaRed_papp hl h1 h2
  | db => exact betaRed_papp hl h1 h2

theorem betaRed_expArgs (ty : HTy) : ∀ a ∈ expArgs ty, a.betaRed = false := by
  induction ty with
  | base => intro a ha; simp [expArgs] at ha
  | arr a b iha ihb =>
    intro t ht
    cases a with
    | base k =>
      rw [expArgs] at ht
      rcases List.mem_cons.1 ht with rfl | ht
      · rfl
      · exact ihb t ht
    | arr a1 a2 =>
      rw [expArgs] at ht
      rcases List.mem_cons.1 ht with rfl | ht
      · rw [betaRed_closeTys]
        exact betaRed_papp rfl rfl iha
      · exact ihb t ht

theorem betaRed_etaExpTop {ct : Nat → HTy} {t : HTerm} (h : t.betaRed = false) : (etaExpTop ct t).betaRed = false := by
  unfold etaExpTop
  split
  · rename_i hc
    simp only [Bool.and_eq_true, Bool.not_eq_true'] at hc
    rw [betaRed_closeTys]
    unfold applyTerms
    split
    · rwa [betaRed_shiftDB]
    · exact betaRed_mkApp (by rw [isLam_shiftDB]; exact hc.2) (by rwa [betaRed_shiftDB]) (betaRed_expArgs _)
  · exact h

theorem betaRed_quantFix {sg : HSig} {t : HTerm} (h : t.betaRed = false) : (quantFix sg t).betaRed = false := by
  unfold quantFix
  split
  · split
    · simp only [betaRed, betaRedL, Bool.or_false] at h ⊢
      exact betaRed_etaExpTop h
    · exact h
  · exact h

theorem betaRed_doEtaReduce (sg : HSig) (t : HTerm) : ∀ {Γ : Nat → Option HTy} inner, WF Γ t → t.betaRed = false →
    (doEtaReduce sg inner t).betaRed = false := by
  induction t using HTerm.ind with
  | hf => intro Γ _ _ h; exact h
  | hd => intro Γ _ _ h; exact h
  | hl ty b ih =>
    intro Γ inner hw h
    cases hw with
    | lam hw =>
      have : (lam ty (doEtaReduce sg true b)).betaRed = false := ih true hw h
      simp only [doEtaReduce]
      split
      · exact this
      · exact betaRed_quantFix (betaRed_etaTop this)
  | ha f as ih =>
    intro Γ inner hw h
    simp only [doEtaReduce]
    refine betaRed_quantFix ?_
    split
    · exact h
    · rw [doEtaReduceL_map]
      simp only [betaRed, betaRedL_any, List.any_eq_false] at h ⊢
      intro a ha
      obtain ⟨c, hc, rfl⟩ := List.mem_map.1 ha
      cases hw with
      | app hw => simpa using ih c hc false (hw c hc) (by simpa using h c hc)
  | hp g as ih1 ih2 =>
    intro Γ inner hw h
    simp only [doEtaReduce]
    refine betaRed_quantFix ?_
    split
    · exact h
    · rw [doEtaReduceL_map]
      simp only [betaRed, betaRedL_any, Bool.or_eq_false_iff, List.any_eq_false] at h
      cases hw with
      | papp w1 w2 w3 w4 =>
        have hg : doEtaReduce sg false g = g := by
          cases g with
          | fvar => rfl
          | db => rfl
          | lam => simp [isLam] at h
          | app => simp [isAnyVar, isLam] at w1
          | papp => simp [isAnyVar, isLam] at w1
        rw [hg]
        refine betaRed_mkApp h.1.1 h.1.2 ?_
        intro a ha
        obtain ⟨c, hc, rfl⟩ := List.mem_map.1 ha
        exact ih2 c hc false (w4 c hc) (by simpa using h.2 c hc)

theorem betaRed_doEtaExpand (ct : Nat → HTy) (t : HTerm) : t.betaRed = false → (doEtaExpand ct t).betaRed = false := by
  induction t using HTerm.ind with
  | hf => intro h; exact betaRed_etaExpTop h
  | hd => intro h; exact betaRed_etaExpTop h
  | hl ty b ih =>
    intro h
    simp only [doEtaExpand]
    split
    · exact ih h
    · exact h
  | ha f as ih =>
    intro h
    simp only [doEtaExpand]
    refine betaRed_etaExpTop ?_
    split
    · exact h
    · rw [doEtaExpandL_map]
      simp only [betaRed, betaRedL_any, List.any_eq_false] at h ⊢
      intro a ha
      obtain ⟨c, hc, rfl⟩ := List.mem_map.1 ha
      simpa using ih c hc (by simpa using h c hc)
  | hp g as _ ih =>
    intro h
    simp only [doEtaExpand]
    refine betaRed_etaExpTop ?_
    split
    · exact h
    · rw [doEtaExpandL_map]
      simp only [betaRed, betaRedL_any, Bool.or_eq_false_iff, List.any_eq_false] at h ⊢
      refine ⟨h.1, ?_⟩
      intro a ha
      obtain ⟨c, hc, rfl⟩ := List.mem_map.1 ha
      simpa using ih c hc (by simpa using h.2 c hc)

/-! ## Nothing is left to expand -/

theorem tyDrop_add (n k : Nat) : ∀ ty : HTy, tyDrop (n + k) ty = tyDrop k (tyDrop n ty) := by
  induction n with
  | zero => intro ty; rw [Nat.zero_add]; cases ty <;> rfl
  | succ n ih =>
    intro ty
    cases ty with
    | base => cases k <;> (rw [Nat.add_right_comm]; rfl)
    | arr a b => rw [Nat.add_right_comm]; simp only [tyDrop]; exact ih b

theorem tyDrop_arity (ty : HTy) : isArrow (tyDrop (tyArity ty) ty) = false := by
  induction ty with
  | base => rfl
  | arr a b _ ih => simpa [tyArity, tyDrop] using ih

theorem expArgs_length (ty : HTy) : (expArgs ty).length = tyArity ty := by
  induction ty with
  | base => rfl
  | arr a b _ ih => cases a <;> (rw [expArgs]; simp [tyArity, ih])

theorem tyOf_shift (ct : Nat → HTy) (s : Int) (t : HTerm) : ∀ d, tyOf ct (t.shift s d) = tyOf ct t := by
  induction t using HTerm.ind with
  | hf => intro d; rfl
  | hd i ty => intro d; simp only [shift]; split <;> rfl
  | hl ty b ih => intro d; simp only [shift, tyOf, ih]
  | ha f as _ => intro d; rw [shift_app]; simp [tyOf]
  | hp g as ih _ => intro d; rw [shift_papp]; simp [tyOf, ih]

theorem tyOf_shiftDB (ct : Nat → HTy) (s : Int) (t : HTerm) : tyOf ct (t.shiftDB s) = tyOf ct t := by
  unfold shiftDB; split
  · rfl
  · exact tyOf_shift ct s t 0

theorem etaExp_shift (ct : Nat → HTy) (s : Int) (t : HTerm) : ∀ d, etaExp ct (t.shift s d) = etaExp ct t := by
  have hL : ∀ (as : List HTerm) (d : Nat), (∀ a ∈ as, ∀ d, etaExp ct (a.shift s d) = etaExp ct a) →
      (as.map (shift s d)).any (etaExp ct) = as.any (etaExp ct) := by
    intro as d h
    rw [List.any_map, Bool.eq_iff_iff]
    simp only [List.any_eq_true, Function.comp]
    exact exists_congr fun a => and_congr_right fun ha => by rw [h a ha]
  induction t using HTerm.ind with
  | hf => intro d; rfl
  | hd i ty => intro d; simp only [shift]; split <;> rfl
  | hl ty b ih => intro d; simp only [shift, etaExp, ih]
  | ha f as ih => intro d; rw [shift_app]; simp only [etaExp, etaExpL_any, tyOf, List.length_map, hL as d ih]
  | hp g as _ ih => intro d; rw [shift_papp]; simp only [etaExp, etaExpL_any, tyOf, List.length_map, tyOf_shift, hL as d ih]

theorem etaExp_shiftDB (ct : Nat → HTy) (s : Int) (t : HTerm) : etaExp ct (t.shiftDB s) = etaExp ct t := by
  unfold shiftDB; split
  · rfl
  · exact etaExp_shift ct s t 0

theorem etaExp_closeTys (ct : Nat → HTy) (tys : List HTy) (m : HTerm) : etaExp ct (closeTys tys m) = etaExp ct m := by
  induction tys with
  | nil => rfl
  | cons ty tys ih => simp [closeTys, etaExp, ih]

theorem etaExp_expArgs (ct : Nat → HTy) (ty : HTy) : ∀ a ∈ expArgs ty, etaExp ct a = false := by
  induction ty with
  | base => intro a ha; simp [expArgs] at ha
  | arr a b iha ihb =>
    intro t ht
    cases a with
    | base k =>
      rw [expArgs] at ht
      rcases List.mem_cons.1 ht with rfl | ht
      · rfl
      · exact ihb t ht
    | arr a1 a2 =>
      rw [expArgs] at ht
      rcases List.mem_cons.1 ht with rfl | ht
      · rw [etaExp_closeTys]
        simp only [etaExp, tyOf, etaExpL_any, Bool.or_eq_false_iff, List.any_eq_false]
        refine ⟨?_, fun a ha => by simpa using iha a ha⟩
        rw [expArgs_length]
        exact tyDrop_arity _
      · exact ihb t ht

/-- The cell is not a binder and its arguments have been expanded. -/
def ArgsDone (ct : Nat → HTy) (t : HTerm) : Prop := t.isLam = false ∧ ∀ a ∈ (match t with | HTerm.app _ as => as | papp _ as => as | _ => []), etaExp ct a = false

theorem etaExp_of_done {ct : Nat → HTy} {t : HTerm} (h : ArgsDone ct t) (hb : isArrow (tyOf ct t) = false) : etaExp ct t = false := by
  cases t with
  | fvar => exact hb
  | db => exact hb
  | lam => simp [ArgsDone, isLam] at h
  | app f as =>
    simp only [etaExp, etaExpL_any, Bool.or_eq_false_iff, List.any_eq_false]
    exact ⟨hb, fun a ha => by simpa using h.2 a ha⟩
  | papp f as =>
    simp only [etaExp, etaExpL_any, Bool.or_eq_false_iff, List.any_eq_false]
    exact ⟨hb, fun a ha => by simpa using h.2 a ha⟩

theorem done_shiftDB {ct : Nat → HTy} {s : Int} {t : HTerm} (h : ArgsDone ct t) : ArgsDone ct (t.shiftDB s) := by
  unfold shiftDB
  split
  · exact h
  · refine ⟨by rw [isLam_shift]; exact h.1, ?_⟩
    cases t with
    | fvar => exact h.2
    | db i ty => simp [shift]
    | lam => simp [ArgsDone, isLam] at h
    | app f as =>
      rw [shift_app]
      intro a ha
      obtain ⟨c, hc, rfl⟩ := List.mem_map.1 ha
      rw [etaExp_shift]
      exact h.2 c hc
    | papp f as =>
      rw [shift_papp]
      intro a ha
      obtain ⟨c, hc, rfl⟩ := List.mem_map.1 ha
      rw [etaExp_shift]
      exact h.2 c hc

theorem tyOf_mkApp (ct : Nat → HTy) (h : HTerm) (as : List HTerm) : tyOf ct (mkApp h as) = tyDrop as.length (tyOf ct h) := by
  cases h <;> simp [mkApp, tyOf, tyDrop_add]

theorem tyOf_closeTys_args (ct : Nat → HTy) (ty : HTy) : ∀ m : HTerm, tyOf ct m = tyDrop (tyArity ty) ty → tyOf ct (closeTys (tyArgs ty) m) = ty := by
  induction ty with
  | base => intro m h; exact h
  | arr a b _ ih => intro m h; simp only [tyArgs, closeTys, tyOf]; rw [ih m h]

theorem etaExpTop_done {ct : Nat → HTy} {t : HTerm} (h : ArgsDone ct t) : etaExp ct (etaExpTop ct t) = false ∧ tyOf ct (etaExpTop ct t) = tyOf ct t := by
  unfold etaExpTop
  split
  · rename_i hc
    simp only [Bool.and_eq_true, Bool.not_eq_true'] at hc
    generalize hty : tyOf ct t = ty at hc
    cases ty with
    | base => simp [isArrow] at hc
    | arr a b =>
      have hd := done_shiftDB (s := (tyArity (.arr a b) : Nat)) h
      have ht := tyOf_shiftDB ct (tyArity (.arr a b) : Nat) t
      rw [hty] at ht
      generalize shiftDB t (tyArity (.arr a b) : Nat) = u at hd ht
      have hne : (expArgs (.arr a b)).isEmpty = false := by simpa using expArgs_ne a b
      simp only [applyTerms, hne, Bool.false_eq_true, if_false]
      have htm : tyOf ct (mkApp u (expArgs (.arr a b))) = tyDrop (tyArity (.arr a b)) (.arr a b) := by rw [tyOf_mkApp, ht, expArgs_length]
      refine ⟨?_, tyOf_closeTys_args ct _ _ htm⟩
      rw [etaExp_closeTys]
      refine etaExp_of_done ⟨mkApp_not_lam _ _, ?_⟩ (by rw [htm]; exact tyDrop_arity _)
      have hx := etaExp_expArgs ct (.arr a b)
      cases u with
      | fvar => exact hx
      | db => exact hx
      | lam => simp [ArgsDone, isLam] at hd
      | app f as => exact fun a ha => (List.mem_append.1 ha).elim (hd.2 a) (hx a)
      | papp f as => exact fun a ha => (List.mem_append.1 ha).elim (hd.2 a) (hx a)
  · rename_i hc
    refine ⟨etaExp_of_done h ?_, rfl⟩
    rw [h.1] at hc
    simpa using hc

theorem doEtaExpand_done (ct : Nat → HTy) (t : HTerm) : etaExp ct (doEtaExpand ct t) = false ∧ tyOf ct (doEtaExpand ct t) = tyOf ct t := by
  induction t using HTerm.ind with
  | hf => exact etaExpTop_done ⟨rfl, by simp⟩
  | hd => exact etaExpTop_done ⟨rfl, by simp⟩
  | hl ty b ih =>
    simp only [doEtaExpand]
    split
    · exact ⟨ih.1, by simp only [tyOf, ih.2]⟩
    · rename_i hc; exact ⟨by simpa [etaExp] using hc, rfl⟩
  | ha f as ih =>
    simp only [doEtaExpand]
    split
    · rename_i hc
      refine etaExpTop_done ⟨rfl, ?_⟩
      simp only [etaExp, etaExpL_any, Bool.not_eq_true', Bool.or_eq_false_iff, List.any_eq_false] at hc
      exact fun a ha => by simpa using hc.2 a ha
    · have := etaExpTop_done (ct := ct) (t := HTerm.app f (doEtaExpandL ct as)) ⟨rfl, by
        rw [doEtaExpandL_map]
        intro a ha
        obtain ⟨c, hc, rfl⟩ := List.mem_map.1 ha
        exact (ih c hc).1⟩
      exact ⟨this.1, by rw [this.2]; simp [tyOf, doEtaExpandL_map]⟩
  | hp g as _ ih =>
    simp only [doEtaExpand]
    split
    · rename_i hc
      refine etaExpTop_done ⟨rfl, ?_⟩
      simp only [etaExp, etaExpL_any, Bool.not_eq_true', Bool.or_eq_false_iff, List.any_eq_false] at hc
      exact fun a ha => by simpa using hc.2 a ha
    · have := etaExpTop_done (ct := ct) (t := papp g (doEtaExpandL ct as)) ⟨rfl, by
        rw [doEtaExpandL_map]
        intro a ha
        obtain ⟨c, hc, rfl⟩ := List.mem_map.1 ha
        exact (ih c hc).1⟩
      exact ⟨this.1, by rw [this.2]; simp [tyOf, doEtaExpandL_map]⟩

end HOProof
end Verif
