import Verif.Formulas.FoolSem
import Mathlib.Tactic.SplitIfs

/-!
# Lemmas on `$ite` lifting and the removal of Boolean arguments
-/

namespace Verif.FoolProof

open Verif Fool FT Interp

universe u
variable {sg : Sig}

theorem ftInd {P : FT → Prop} (hv : ∀ x, P (.var x)) (ha : ∀ f ts, (∀ t ∈ ts, P t) → P (.app f ts))
    (he : ∀ p l r, P l → P r → P (.eqn p l r)) (hn : ∀ a, P a → P (.not a)) (hb : ∀ op a b, P a → P b → P (.bin op a b))
    (hq : ∀ u x a, P a → P (.qu u x a)) (hi : ∀ c a b, P c → P a → P b → P (.ite c a b)) (t : FT) : P t :=
  FT.rec (motive_1 := P) (motive_2 := fun ts => ∀ t ∈ ts, P t) hv ha he hn hb hq hi
    (fun _ h => absurd h (by simp)) (fun _ _ h1 h2 _ h => (List.mem_cons.1 h).elim (fun e => e ▸ h1) (h2 _)) t

theorem wtl_iff (ts : List FT) : WTL sg ts ↔ ∀ t ∈ ts, WT sg t := by
  induction ts with
  | nil => simp [WTL]
  | cons t ts ih => simp [WTL, ih]

theorem iteFreeL_iff (ts : List FT) : IteFreeL ts ↔ ∀ t ∈ ts, IteFree t := by
  induction ts with
  | nil => simp [IteFreeL]
  | cons t ts ih => simp [IteFreeL, ih]

theorem okL_iff (ts : List FT) : OKL ts ↔ ∀ t ∈ ts, OK false t := by
  induction ts with
  | nil => simp [OKL]
  | cons t ts ih => simp [OKL, ih]

theorem sidesOKL_iff (ts : List FT) : SidesOKL ts ↔ ∀ t ∈ ts, SidesOK t := by
  induction ts with
  | nil => simp [SidesOKL]
  | cons t ts ih => simp [SidesOKL, ih]

theorem varSidesL_iff (ts : List FT) : VarSidesL ts ↔ ∀ t ∈ ts, VarSides t := by
  induction ts with
  | nil => simp [VarSidesL]
  | cons t ts ih => simp [VarSidesL, ih]

theorem valL_eq (I : Interp.{u} sg) (ts : List FT) (v) : valL I ts v = ts.map (val I · v) := by
  induction ts with
  | nil => rfl
  | cons t ts ih => simp [valL, ih]

theorem expandL_eq (ts : List FT) : expandL sg ts = ts.map (expand sg) := by
  induction ts with
  | nil => rfl
  | cons t ts ih => simp [expandL, ih]

/-! ## Values -/

theorem b2d_true (I : Interp.{u} sg) {p : Prop} : b2d I p = I.fn 1 [] ↔ p := by
  unfold b2d
  split_ifs with h
  · simp [h]
  · simp [h, I.tf.symm]

theorem b2d_cong (I : Interp.{u} sg) {p q : Prop} (h : p ↔ q) : b2d I p = b2d I q := by rw [propext h]

theorem b2d_mem (hs : SigOK sg) (I : Interp.{u} sg) (p : Prop) : I.mem (sg.fty 1) (b2d I p) := by
  unfold b2d
  split_ifs
  · exact I.fn_mem 1 [] (by rw [hs.targs]; exact .nil)
  · rw [hs.tf]; exact I.fn_mem 2 [] (by rw [hs.fargs]; exact .nil)

theorem b2d_self (I : Interp.{u} sg) {d : I.D} (h : I.mem (sg.fty 1) d) : b2d I (d = I.fn 1 []) = d := by
  unfold b2d
  rcases I.bool2 d h with e | e
  · simp [e]
  · simp [e, I.tf.symm]

theorem sorted_updv (I : Interp.{u} sg) {v} (hv : I.Sorted v) {x d} (hd : I.mem (sg.vty x) d) : I.Sorted (updv v x d) := by
  intro y
  unfold updv
  split_ifs with h
  · exact h ▸ hd
  · exact hv y

theorem val_eqn (I : Interp.{u} sg) (p l r v) : val I (.eqn p l r) v = b2d I ((val I l v = val I r v) ↔ p = true) := by
  cases p <;> simp [val]

theorem val_mem (hs : SigOK sg) (I : Interp.{u} sg) {t : FT} (h : WT sg t) {v} (hv : I.Sorted v) :
    I.mem (t.ty sg) (val I t v) := by
  induction t using ftInd generalizing v with
  | hv x => exact hv x
  | ha f ts ih =>
    rw [WT, wtl_iff] at h
    rw [val, valL_eq]
    refine I.fn_mem f _ ?_
    rw [← h.1, List.forall₂_map_left_iff, List.forall₂_map_right_iff, List.forall₂_same]
    exact fun t ht => ih t ht (h.2 t ht) hv
  | he p l r _ _ => rw [val_eqn]; exact b2d_mem hs I _
  | hn a _ => rw [val]; exact b2d_mem hs I _
  | hb op a b _ _ => rw [val]; exact b2d_mem hs I _
  | hq q x a _ => cases q <;> rw [val] <;> exact b2d_mem hs I _
  | hi c a b _ iha ihb =>
    rw [WT] at h
    rw [val]
    split_ifs
    · exact iha h.2.1 hv
    · have := ihb h.2.2.1 hv
      rw [← h.2.2.2.2] at this
      exact this

theorem val_tt (I : Interp.{u} sg) (v) : val I tt v = I.fn 1 [] := by simp [tt, val, valL]

theorem val_ff (I : Interp.{u} sg) (v) : val I ff v = I.fn 2 [] := by simp [ff, val, valL]

theorem isTrue_eq {t : FT} (h : t.isTrue = true) : t = tt := by
  unfold FT.isTrue at h
  split at h
  · rfl
  · cases h

theorem wt_tt (hs : SigOK sg) : WT sg tt := by simp [tt, WT, WTL, hs.targs]

theorem wt_ff (hs : SigOK sg) : WT sg ff := by simp [ff, WT, WTL, hs.fargs]

theorem ty_ff (hs : SigOK sg) : ff.ty sg = sg.fty 1 := by simp [ff, ty, hs.tf]

theorem isBool_iff (t : FT) : t.isBool sg = true ↔ t.ty sg = sg.fty 1 := by simp [isBool]

/-! ## Expansion of literals -/

theorem expandEqn_wt {l r : FT} (hl : WT sg l) (hr : WT sg r) (h : l.ty sg = r.ty sg) :
    WT sg (expandEqn sg l r) ∧ (expandEqn sg l r).ty sg = sg.fty 1 := by
  unfold expandEqn
  split_ifs with h1 h2 h3
  · rw [isBool_iff] at h1
    exact ⟨⟨hl, hr, h1, h ▸ h1⟩, rfl⟩
  · exact ⟨hl, (isBool_iff _).1 h1⟩
  all_goals exact ⟨⟨hl, hr, h⟩, rfl⟩

theorem expandEqn_val (hs : SigOK sg) (I : Interp.{u} sg) {l r : FT} (hl : WT sg l) (hr : WT sg r) (h : l.ty sg = r.ty sg) {v}
    (hv : I.Sorted v) : val I (expandEqn sg l r) v = b2d I (val I l v = val I r v) := by
  unfold expandEqn
  split_ifs with h1 h2 h3
  · rw [isBool_iff] at h1
    rw [val]
    refine b2d_cong I ?_
    have a := I.bool2 _ (h1 ▸ val_mem hs I hl hv)
    have b := I.bool2 _ (h1 ▸ h ▸ val_mem hs I hr hv)
    have := I.tf
    simp only [BOp.Holds]
    rcases a with a | a <;> rcases b with b | b <;> simp [a, b, this, this.symm]
  · rw [isBool_iff] at h1
    have h4 : r.isTrue = true := by
      simp only [Bool.and_eq_true, Bool.not_eq_true'] at h2 h3
      by_contra hc
      exact h2 ⟨h3.1, by simpa using hc⟩
    rw [isTrue_eq h4, val_tt]
    exact (b2d_self I (h1 ▸ val_mem hs I hl hv)).symm
  all_goals rw [val_eqn]; simp

theorem expand_wt {t : FT} (h : WT sg t) : WT sg (expand sg t) ∧ (expand sg t).ty sg = t.ty sg := by
  induction t using ftInd with
  | hv x => exact ⟨h, rfl⟩
  | ha f ts ih =>
    rw [WT, wtl_iff] at h
    refine ⟨?_, rfl⟩
    rw [expand, WT, wtl_iff, expandL_eq]
    refine ⟨?_, ?_⟩
    · rw [← h.1, List.map_map]
      exact List.map_congr_left fun t ht => (ih t ht (h.2 t ht)).2
    · simp only [List.mem_map]
      rintro _ ⟨t, ht, rfl⟩
      exact (ih t ht (h.2 t ht)).1
  | he p l r ihl ihr =>
    rw [WT] at h
    have hl := ihl h.1
    have hr := ihr h.2.1
    have := expandEqn_wt hl.1 hr.1 (by rw [hl.2, hr.2, h.2.2])
    cases p
    · rw [expand]; exact ⟨this, rfl⟩
    · rw [expand]; exact this
  | hn a ih => rw [WT] at h; exact ⟨⟨(ih h.1).1, (ih h.1).2.trans h.2⟩, rfl⟩
  | hb op a b iha ihb =>
    rw [WT] at h
    exact ⟨⟨(iha h.1).1, (ihb h.2.1).1, (iha h.1).2.trans h.2.2.1, (ihb h.2.1).2.trans h.2.2.2⟩, rfl⟩
  | hq q x a ih => rw [WT] at h; exact ⟨⟨(ih h.1).1, (ih h.1).2.trans h.2⟩, rfl⟩
  | hi c a b ihc iha ihb =>
    rw [WT] at h
    refine ⟨⟨(ihc h.1).1, (iha h.2.1).1, (ihb h.2.2.1).1, (ihc h.1).2.trans h.2.2.2.1, ?_⟩, ?_⟩
    · rw [(iha h.2.1).2, (ihb h.2.2.1).2, h.2.2.2.2]
    · exact (iha h.2.1).2

theorem expand_val (hs : SigOK sg) (I : Interp.{u} sg) {t : FT} (h : WT sg t) {v} (hv : I.Sorted v) :
    val I (expand sg t) v = val I t v := by
  induction t using ftInd generalizing v with
  | hv x => rfl
  | ha f ts ih =>
    rw [WT, wtl_iff] at h
    rw [expand, val, val, valL_eq, valL_eq, expandL_eq, List.map_map]
    congr 1
    exact List.map_congr_left fun t ht => ih t ht (h.2 t ht) hv
  | he p l r ihl ihr =>
    rw [WT] at h
    have hl := expand_wt h.1
    have hr := expand_wt h.2.1
    have := expandEqn_val hs I hl.1 hr.1 (by rw [hl.2, hr.2, h.2.2]) hv
    rw [ihl h.1 hv, ihr h.2.1 hv] at this
    cases p
    · rw [expand, val.eq_5, this, val.eq_4]; exact b2d_cong I (by rw [Ne, b2d_true])
    · rw [expand, this, val]
  | hn a ih => rw [WT] at h; rw [expand, val, val, ih h.1 hv]
  | hb op a b iha ihb => rw [WT] at h; rw [expand, val, val, iha h.1 hv, ihb h.2.1 hv]
  | hq q x a ih =>
    rw [WT] at h
    cases q
    · rw [expand, val, val]
      exact b2d_cong I ⟨fun ⟨d, hd, k⟩ => ⟨d, hd, by rwa [ih h.1 (sorted_updv I hv hd)] at k⟩,
        fun ⟨d, hd, k⟩ => ⟨d, hd, by rwa [ih h.1 (sorted_updv I hv hd)]⟩⟩
    · rw [expand, val, val]
      exact b2d_cong I ⟨fun k d hd => by rw [← ih h.1 (sorted_updv I hv hd)]; exact k d hd,
        fun k d hd => by rw [ih h.1 (sorted_updv I hv hd)]; exact k d hd⟩
  | hi c a b ihc iha ihb =>
    rw [WT] at h
    rw [expand, val, val, ihc h.1 hv, iha h.2.1 hv, ihb h.2.2.1 hv]

theorem isQu_bool {t : FT} (h : t.isQu = true) : t.ty sg = sg.fty 1 := by
  cases t <;> simp_all [isQu, ty]

theorem expandEqn_sides {l r : FT} (hl : SidesOK l) (hr : SidesOK r) (h : l.ty sg = r.ty sg)
    (hq : l.isVar = true → r.isQu = false) : SidesOK (expandEqn sg l r) := by
  unfold expandEqn
  split_ifs with h1 h2 h3
  · exact ⟨hl, hr⟩
  · exact hl
  · refine ⟨hl, hr, ?_⟩
    simp only [Bool.and_eq_true, Bool.not_eq_true', not_and] at h2 h3
    cases e : l.isVar
    · refine ⟨?_, ?_⟩
      · have := h3 e
        cases l <;> simp_all [internal, isQu]
      · have := h2 e
        have : r.isTrue = true := by simpa using this
        rw [isTrue_eq this]; rfl
    · refine ⟨?_, hq e⟩
      cases l <;> simp_all [isVar, isQu]
  · refine ⟨hl, hr, ?_⟩
    rw [isBool_iff] at h1
    refine ⟨?_, ?_⟩
    · cases e : l.isQu
      · rfl
      · exact absurd (isQu_bool e) h1
    · cases e : r.isQu
      · rfl
      · exact absurd (h.trans (isQu_bool e)) h1

theorem expandEqn_isVar {l r : FT} (h : (expandEqn sg l r).isVar = true) : False := by
  unfold expandEqn at h
  split_ifs at h with h1 h2 h3
  all_goals simp_all [isVar]

theorem expand_isVar {t : FT} (h : (expand sg t).isVar = true) : t.isVar = true := by
  cases t with
  | eqn p l r =>
    cases p
    · simp [expand, isVar] at h
    · rw [expand] at h; exact (expandEqn_isVar h).elim
  | _ => simp_all [expand, isVar]

theorem expand_sides {t : FT} (h : WT sg t) (hv : VarSides t) : SidesOK (expand sg t) := by
  induction t using ftInd with
  | hv x => trivial
  | ha f ts ih =>
    rw [WT, wtl_iff] at h
    rw [VarSides, varSidesL_iff] at hv
    rw [expand, SidesOK, sidesOKL_iff, expandL_eq]
    simp only [List.mem_map]
    rintro _ ⟨t, ht, rfl⟩
    exact ih t ht (h.2 t ht) (hv t ht)
  | he p l r ihl ihr =>
    rw [WT] at h
    rw [VarSides] at hv
    have hl := expand_wt h.1
    have hr := expand_wt h.2.1
    have := expandEqn_sides (sg := sg) (ihl h.1 hv.1) (ihr h.2.1 hv.2.1) (by rw [hl.2, hr.2, h.2.2]) (by
      intro e
      rcases hv.2.2 (expand_isVar e) with k | ⟨f, ts, rfl⟩ | ⟨c, a, b, rfl⟩
      · cases r <;> simp_all [isVar, expand, isQu]
      · rfl
      · rfl)
    cases p
    · rw [expand]; exact this
    · rw [expand]; exact this
  | hn a ih => exact ih h.1 hv
  | hb op a b iha ihb => exact ⟨iha h.1 hv.1, ihb h.2.1 hv.2⟩
  | hq q x a ih => exact ih h.1 hv
  | hi c a b ihc iha ihb => exact ⟨ihc h.1 hv.1, iha h.2.1 hv.2.1, ihb h.2.2.1 hv.2.2⟩

/-! ## Positions -/

/-- An argument of a term, and the replacement of it; below a quantifier only if `q`. -/
inductive Child (q : Bool) : FT → FT → (FT → FT) → Prop
  | app (f pre a post) : Child q (.app f (pre ++ a :: post)) a fun u => .app f (pre ++ u :: post)
  | eqnl (p l r) : Child q (.eqn p l r) l fun u => .eqn p u r
  | eqnr (p l r) : Child q (.eqn p l r) r fun u => .eqn p l u
  | not (a) : Child q (.not a) a .not
  | binl (op a b) : Child q (.bin op a b) a fun u => .bin op u b
  | binr (op a b) : Child q (.bin op a b) b fun u => .bin op a u
  | qu (u x a) (h : q = true) : Child q (.qu u x a) a (.qu u x)
  | itec (c a b) : Child q (.ite c a b) c fun u => .ite u a b
  | itea (c a b) : Child q (.ite c a b) a fun u => .ite c u b
  | iteb (c a b) : Child q (.ite c a b) b fun u => .ite c a u

/-- A position in a term: the subterm there and the replacement of it. -/
inductive At (q : Bool) : FT → FT → (FT → FT) → Prop
  | here (t) : At q t t fun u => u
  | step {t a m s k} : Child q t a m → At q a s k → At q t s fun u => m (k u)

theorem child_false {t a m} (h : Child true t a m) (hq : t.isQu = false) : Child false t a m := by
  cases h with
  | qu u x a h => simp [isQu] at hq
  | _ => constructor

theorem child_mem {t a m q} (h : Child q t a m) : a ∈ kids t := by
  cases h <;> simp [kids]

theorem mem_child {t a} (h : a ∈ kids t) : ∃ m, Child true t a m := by
  cases t with
  | app f ts =>
    obtain ⟨pre, post, rfl⟩ := List.append_of_mem (show a ∈ ts from h)
    exact ⟨_, .app _ _ _ _⟩
  | var x => simp [kids] at h
  | eqn p l r => simp only [kids, List.mem_cons, List.not_mem_nil, or_false] at h; rcases h with rfl | rfl; exacts [⟨_, .eqnl ..⟩, ⟨_, .eqnr ..⟩]
  | not a => simp only [kids, List.mem_cons, List.not_mem_nil, or_false] at h; subst h; exact ⟨_, .not ..⟩
  | bin op l r => simp only [kids, List.mem_cons, List.not_mem_nil, or_false] at h; rcases h with rfl | rfl; exacts [⟨_, .binl ..⟩, ⟨_, .binr ..⟩]
  | qu u x b => simp only [kids, List.mem_cons, List.not_mem_nil, or_false] at h; subst h; exact ⟨_, .qu _ _ _ rfl⟩
  | ite c l r =>
    simp only [kids, List.mem_cons, List.not_mem_nil, or_false] at h
    rcases h with rfl | rfl | rfl
    exacts [⟨_, .itec ..⟩, ⟨_, .itea ..⟩, ⟨_, .iteb ..⟩]

theorem kidInd {P : FT → Prop} (h : ∀ t, (∀ a ∈ kids t, P a) → P t) (t : FT) : P t := by
  induction t using ftInd with
  | hv x => exact h _ (by simp [kids])
  | ha f ts ih => exact h _ ih
  | he p l r hl hr => exact h _ (by simp [kids, hl, hr])
  | hn a ih => exact h _ (by simp [kids, ih])
  | hb op a b ha hb => exact h _ (by simp [kids, ha, hb])
  | hq u x a ih => exact h _ (by simp [kids, ih])
  | hi c a b hc ha hb => exact h _ (by simp [kids, ha, hb, hc])

theorem child_eq {t a m q} (h : Child q t a m) : m a = t := by cases h <;> rfl

theorem at_eq {t s k q} (h : At q t s k) : k s = t := by
  induction h with
  | here => rfl
  | step hc _ ih => simp only [ih, child_eq hc]

theorem child_wt {t a m q} (h : Child q t a m) (ht : WT sg t) : WT sg a ∧
    ∀ u, WT sg u → u.ty sg = a.ty sg → WT sg (m u) ∧ (m u).ty sg = t.ty sg := by
  cases h <;> simp only [WT, wtl_iff] at ht ⊢
  case app f pre post =>
    refine ⟨ht.2 _ (by simp), fun u hu e => ⟨⟨?_, ?_⟩, rfl⟩⟩
    · rw [← ht.1]; simp [e]
    · intro x hx
      rcases List.mem_append.1 hx with h | h
      · exact ht.2 x (by simp [h])
      · rcases List.mem_cons.1 h with rfl | h
        · exact hu
        · exact ht.2 x (by simp [h])
  all_goals refine ⟨by tauto, fun u hu e => ?_⟩
  all_goals simp_all [ty]

theorem at_wt {t s k q} (h : At q t s k) (ht : WT sg t) : WT sg s ∧
    ∀ u, WT sg u → u.ty sg = s.ty sg → WT sg (k u) ∧ (k u).ty sg = t.ty sg := by
  induction h with
  | here => exact ⟨ht, fun u hu e => ⟨hu, e⟩⟩
  | step hc _ ih =>
    have h1 := child_wt hc ht
    have h2 := ih h1.1
    refine ⟨h2.1, fun u hu e => ?_⟩
    have h3 := h2.2 u hu e
    exact h1.2 _ h3.1 h3.2

theorem child_val {t a m} (h : Child false t a m) (I : Interp.{u} sg) {v} {x y : FT} (e : val I x v = val I y v) :
    val I (m x) v = val I (m y) v := by
  cases h
  case qu h => cases h
  case itec a b =>
    simp only [val]
    by_cases hc : val I x v = I.fn 1 []
    · rw [if_pos hc, if_pos (e ▸ hc)]
    · rw [if_neg hc, if_neg (e ▸ hc)]
  all_goals simp only [val, val_eqn, valL_eq, List.map_append, List.map_cons, e]

theorem at_val {t s k} (h : At false t s k) (I : Interp.{u} sg) {v} {x y : FT} (e : val I x v = val I y v) :
    val I (k x) v = val I (k y) v := by
  induction h with
  | here => exact e
  | step hc _ ih => exact child_val hc I ih

/-! ## The searches -/

/-- The first argument for which the search `g` has a result. -/
def findKidL (g : FT → Option Pos) : List FT → Option (FT × (FT → List FT))
  | [] => none
  | t :: ts =>
    match g t with
    | some (s, k) => some (s, fun u => k u :: ts)
    | none => (findKidL g ts).map fun (s, k) => (s, fun u => t :: k u)

def findKid (g : FT → Option Pos) : FT → Option Pos
  | .var _ => none
  | .app f ts => (findKidL g ts).map fun (s, k) => (s, fun u => .app f (k u))
  | .eqn p l r => first2 (.eqn p) l r (g l) (g r)
  | .not a => (g a).map fun (s, k) => (s, fun u => .not (k u))
  | .bin op a b => first2 (.bin op) a b (g a) (g b)
  | .qu q x a => (g a).map fun (s, k) => (s, fun u => .qu q x (k u))
  | .ite c a b =>
    match g c with
    | some (s, k) => some (s, fun u => .ite (k u) a b)
    | none => first2 (.ite c) a b (g a) (g b)

theorem findKidL_some {g ts s k} (h : findKidL g ts = some (s, k)) :
    ∃ pre a post k', ts = pre ++ a :: post ∧ g a = some (s, k') ∧ k = fun u => pre ++ k' u :: post := by
  induction ts generalizing k with
  | nil => simp [findKidL] at h
  | cons t ts ih =>
    rw [findKidL] at h
    cases e : g t with
    | some p =>
      obtain ⟨s', k'⟩ := p
      rw [e] at h
      simp only [Option.some.injEq, Prod.mk.injEq] at h
      exact ⟨[], t, ts, k', rfl, by rw [e, h.1], h.2.symm⟩
    | none =>
      rw [e] at h
      simp only [Option.map_eq_some_iff, Prod.mk.injEq] at h
      obtain ⟨⟨s', k'⟩, h1, rfl, rfl⟩ := h
      obtain ⟨pre, a, post, k2, rfl, ha, rfl⟩ := ih h1
      exact ⟨t :: pre, a, post, k2, rfl, ha, rfl⟩

theorem findKidL_none {g ts} (h : findKidL g ts = none) : ∀ t ∈ ts, g t = none := by
  induction ts with
  | nil => simp
  | cons t ts ih =>
    rw [findKidL] at h
    cases e : g t with
    | some p => rw [e] at h; cases h
    | none =>
      rw [e] at h
      simp only [Option.map_eq_none_iff] at h
      intro x hx
      rcases List.mem_cons.1 hx with rfl | hx
      · exact e
      · exact ih h x hx

theorem first2_some {mk l r pl pr s k} (h : first2 mk l r pl pr = some (s, k)) :
    (∃ k', pl = some (s, k') ∧ k = fun u => mk (k' u) r) ∨ ∃ k', pr = some (s, k') ∧ k = fun u => mk l (k' u) := by
  unfold first2 at h
  split at h
  · simp only [Option.some.injEq, Prod.mk.injEq] at h
    obtain ⟨rfl, rfl⟩ := h
    exact .inl ⟨_, rfl, rfl⟩
  · simp only [Option.map_eq_some_iff, Prod.mk.injEq] at h
    obtain ⟨⟨s', k'⟩, h1, rfl, rfl⟩ := h
    exact .inr ⟨_, h1, rfl⟩

theorem first2_none {mk l r pl pr} (h : first2 mk l r pl pr = none) : pl = none ∧ pr = none := by
  unfold first2 at h
  split at h
  · cases h
  · simpa using h

theorem findKid_some {g t s k} (h : findKid g t = some (s, k)) :
    ∃ a m k', Child true t a m ∧ g a = some (s, k') ∧ k = fun u => m (k' u) := by
  cases t with
  | var x => cases h
  | app f ts =>
    simp only [findKid, Option.map_eq_some_iff, Prod.mk.injEq] at h
    obtain ⟨⟨s', k'⟩, h1, rfl, rfl⟩ := h
    obtain ⟨pre, a, post, k2, rfl, ha, rfl⟩ := findKidL_some h1
    exact ⟨a, _, k2, .app f pre a post, ha, rfl⟩
  | eqn p l r =>
    rcases first2_some h with ⟨k', h1, rfl⟩ | ⟨k', h1, rfl⟩
    · exact ⟨l, _, k', .eqnl .., h1, rfl⟩
    · exact ⟨r, _, k', .eqnr .., h1, rfl⟩
  | not a =>
    simp only [findKid, Option.map_eq_some_iff, Prod.mk.injEq] at h
    obtain ⟨⟨s', k'⟩, h1, rfl, rfl⟩ := h
    exact ⟨a, _, k', .not a, h1, rfl⟩
  | bin op l r =>
    rcases first2_some h with ⟨k', h1, rfl⟩ | ⟨k', h1, rfl⟩
    · exact ⟨l, _, k', .binl .., h1, rfl⟩
    · exact ⟨r, _, k', .binr .., h1, rfl⟩
  | qu q x a =>
    simp only [findKid, Option.map_eq_some_iff, Prod.mk.injEq] at h
    obtain ⟨⟨s', k'⟩, h1, rfl, rfl⟩ := h
    exact ⟨a, _, k', .qu _ _ a rfl, h1, rfl⟩
  | ite c l r =>
    rw [findKid] at h
    split at h
    · next k0 e =>
      simp only [Option.some.injEq, Prod.mk.injEq] at h
      obtain ⟨rfl, rfl⟩ := h
      exact ⟨c, _, k0, .itec .., e, rfl⟩
    · rcases first2_some h with ⟨k', h1, rfl⟩ | ⟨k', h1, rfl⟩
      · exact ⟨l, _, k', .itea .., h1, rfl⟩
      · exact ⟨r, _, k', .iteb .., h1, rfl⟩

theorem findKid_none {g t} (h : findKid g t = none) : ∀ a ∈ kids t, g a = none := by
  cases t with
  | var x => simp [kids]
  | app f ts =>
    simp only [findKid, Option.map_eq_none_iff] at h
    exact findKidL_none h
  | eqn p l r => have := first2_none h; simp [kids, this]
  | not a => simp only [findKid, Option.map_eq_none_iff] at h; simp [kids, h]
  | bin op l r => have := first2_none h; simp [kids, this]
  | qu q x a => simp only [findKid, Option.map_eq_none_iff] at h; simp [kids, h]
  | ite c l r =>
    rw [findKid] at h
    split at h
    · cases h
    · next e => have := first2_none h; simp [kids, this, e]

theorem findFoolL_kid (ts : List FT) : findFoolL sg ts = findKidL (fun a => tryBool sg a (findFool sg a)) ts := by
  induction ts with
  | nil => rw [findFoolL, findKidL]
  | cons t ts ih =>
    rw [findFoolL, findKidL, ih]
    cases tryBool sg t (findFool sg t) <;> rfl

theorem findFool_kid (t : FT) : findFool sg t = findKid (fun a => tryBool sg a (findFool sg a)) t := by
  cases t with
  | ite c a b => rw [findFool, findKid]; cases tryBool sg c (findFool sg c) <;> rfl
  | _ => simp only [findFool, findKid, findFoolL_kid]

theorem findIteL_kid (ts : List FT) : findIteL ts = findKidL (fun a => tryIte a (findIte a)) ts := by
  induction ts with
  | nil => rw [findIteL, findKidL]
  | cons t ts ih =>
    rw [findIteL, findKidL, ih]
    cases tryIte t (findIte t) <;> rfl

theorem findIte_kid (t : FT) : findIte t = findKid (fun a => tryIte a (findIte a)) t := by
  cases t with
  | ite c a b => rw [findIte, findKid]; cases tryIte c (findIte c) <;> rfl
  | _ => simp only [findIte, findKid, findIteL_kid]

end Verif.FoolProof
