import Verif.Text.ScanProof

/-!
# Parsing the tokens of printed terms, clauses and formulas
-/

namespace Verif

namespace Text

variable {V : Vocab}

/-! ## Roles of symbols -/

theorem entry_setRole (sg : SigTab) (f : Nat) (r : Role) (g : Nat) (hf : f ≠ 0) :
    (sg.setRole f r).entry g = (sg.entry g).map fun e => if g = f then { e with role := r } else e := by
  cases g with
  | zero => simp [SigTab.entry]
  | succ g =>
    cases f with
    | zero => exact absurd rfl hf
    | succ f =>
      simp only [SigTab.entry, SigTab.setRole, Nat.add_sub_cancel, List.getElem?_modify]
      by_cases h : g = f
      · subst h; simp
      · have h' : f ≠ g := fun e => h e.symm
        simp [h', h]

theorem entry_ne_zero {sg : SigTab} {f : Nat} {e : SymEntry} (h : sg.entry f = some e) : f ≠ 0 := by
  rintro rfl; simp [SigTab.entry] at h

theorem mem_entry {sg : SigTab} {e : SymEntry} (h : e ∈ sg) : ∃ f, sg.entry f = some e := by
  obtain ⟨i, hi⟩ := List.getElem?_of_mem h
  exact ⟨i + 1, hi⟩

theorem SigExt.setRole (sg : SigTab) {f : Nat} (hf : f ≠ 0) (r : Role) : SigExt sg (sg.setRole f r) := by
  intro g e he
  rw [entry_setRole _ _ _ _ hf, he]
  refine ⟨_, rfl, ?_⟩
  split <;> simp

theorem EntryFor.congr {sg sg' : SigTab} {e e' : SymEntry} (h : EntryFor V sg e) (hn : e'.name = e.name) (hp : e'.pname = e.pname)
    (ha : e'.arity = e.arity) (hs : SigExt sg sg') : EntryFor V sg' e' := by
  cases h with
  | plain h ok => exact .plain (by rw [hn, hp, h]) (by rw [hp, ha]; exact ok)
  | fix h ok hq p hpm hnp hap =>
    obtain ⟨g, hg⟩ := mem_entry hpm
    obtain ⟨p', hg', h1, h2, h3⟩ := hs g p hg
    exact .fix (by rw [hn, hp, ha, h]) (by rw [hp, ha]; exact ok) (by rw [hp]; exact hq) p' (entry_mem hg') (by rw [h1, hp, hnp])
      (by rw [h3, ha]; exact hap)
  | foreign h => exact .foreign (by rw [hn, hp]; exact h)

theorem SigFor.setRole {sg : SigTab} (h : SigFor V sg) {f : Nat} {e : SymEntry} (he : sg.entry f = some e) {r : Role}
    (hr : r = if V.pred (rawName e.pname) e.arity then .pred else .fn) : SigFor V (sg.setRole f r) := by
  have hf := entry_ne_zero he
  have back : ∀ x ∈ sg.setRole f r, ∃ y ∈ sg, x.name = y.name ∧ x.pname = y.pname ∧ x.arity = y.arity ∧
      (x.role = y.role ∨ x.role = r ∧ y = e) := by
    intro x hx
    obtain ⟨g, hg⟩ := mem_entry hx
    rw [entry_setRole _ _ _ _ hf] at hg
    obtain ⟨y, hy, rfl⟩ := Option.map_eq_some_iff.1 hg
    refine ⟨y, entry_mem hy, ?_⟩
    split
    · next hgf =>
      subst hgf
      rw [he] at hy
      cases hy
      simp
    · simp
  refine ⟨?_, ?_, ?_⟩
  · intro x hx
    obtain ⟨y, hy, h1, h2, h3, _⟩ := back x hx
    exact (h.ent y hy).congr h1 h2 h3 (SigExt.setRole sg hf r)
  · have : (sg.setRole f r).map (·.name) = sg.map (·.name) := by
      apply List.ext_getElem?
      intro i
      have := entry_setRole sg f r (i + 1) hf
      simp only [SigTab.entry] at this
      rw [List.getElem?_map, List.getElem?_map, this, Option.map_map]
      congr 1
      funext x
      simp only [Function.comp]
      split <;> rfl
    rw [this]; exact h.nodup
  · intro x hx ok
    obtain ⟨y, hy, h1, h2, h3, h4⟩ := back x hx
    rw [h2, h3] at ok ⊢
    rcases h4 with h4 | ⟨h4, rfl⟩
    · rw [h4]; exact h.role y hy ok
    · rw [h4, hr]; exact Or.inr rfl

theorem SigTF.setRole {sg : SigTab} (h : SigTF sg) {f : Nat} (hf : f ≠ 0) {r : Role} (hr : r = .pred ∨ (f ≠ 1 ∧ f ≠ 2)) :
    SigTF (sg.setRole f r) := by
  have key : ∀ g nm, g = 1 ∨ g = 2 → (∃ e, sg.entry g = some e ∧ e.pname = nm ∧ e.arity = 0 ∧ e.role = .pred) →
      ∃ e, (sg.setRole f r).entry g = some e ∧ e.pname = nm ∧ e.arity = 0 ∧ e.role = .pred := by
    rintro g nm hg ⟨e, he, h1, h2, h3⟩
    rw [entry_setRole _ _ _ _ hf, he]
    refine ⟨_, rfl, ?_⟩
    split
    · next hgf =>
      rcases hr with rfl | hr
      · exact ⟨h1, h2, rfl⟩
      · omega
    · exact ⟨h1, h2, h3⟩
  exact ⟨key 1 _ (Or.inl rfl) h.t, key 2 _ (Or.inr rfl) h.f⟩

theorem sigInsert_shape (sg : SigTab) (nm : List Char) (n : Nat) :
    (sigInsert sg nm n).2 = sg ∨ ∃ e, (sigInsert sg nm n).2 = sg ++ [e] := by
  unfold sigInsert
  split
  · split
    · split
      · exact Or.inl rfl
      · exact Or.inr ⟨_, rfl⟩
    · exact Or.inl rfl
  · exact Or.inr ⟨_, rfl⟩

theorem entry_append_left {sg l : SigTab} {f : Nat} {e : SymEntry} (h : sg.entry f = some e) : SigTab.entry (sg ++ l) f = some e := by
  cases f with
  | zero => simp [SigTab.entry] at h
  | succ f =>
    simp only [SigTab.entry] at h ⊢
    rw [List.getElem?_append_left (List.getElem?_eq_some_iff.1 h).1]; exact h

theorem SigTF.insert {sg : SigTab} (h : SigTF sg) (nm : List Char) (n : Nat) : SigTF (sigInsert sg nm n).2 := by
  rcases sigInsert_shape sg nm n with e | ⟨x, e⟩
  · rw [e]; exact h
  · rw [e]
    obtain ⟨e1, h1, h1'⟩ := h.t
    obtain ⟨e2, h2, h2'⟩ := h.f
    exact ⟨⟨e1, entry_append_left h1, h1'⟩, ⟨e2, entry_append_left h2, h2'⟩⟩

/-! ## The state of the parser -/

/-- Names of variables stand for different variables in use. -/
structure POK (V : Vocab) (ti : Nat) (st : PSt) : Prop extends ReadOK V st where
  inj : ∀ nm nm' y, st.ext.lookup nm = some y → st.ext.lookup nm' = some y → nm = nm'
  used : ∀ nm y, st.ext.lookup nm = some y → y ∈ (st.bank.vstk ti).take (st.bank.vcnt ti)

/-- Symbols and variable names keep their meaning. -/
structure PExt (st st' : PSt) : Prop where
  sig : SigExt st.sig st'.sig
  ext : ∀ nm y, st.ext.lookup nm = some y → st'.ext.lookup nm = some y

theorem PExt.refl (st : PSt) : PExt st st := ⟨sigExt_refl _, fun _ _ h => h⟩

theorem PExt.trans {a b c : PSt} (h : PExt a b) (k : PExt b c) : PExt a c := ⟨h.sig.trans k.sig, fun nm y e => k.ext nm y (h.ext nm y e)⟩

theorem extVar_spec {ti : Nat} {st : PSt} (h : POK V ti st) (nm : List Char) :
    POK V ti (extVar ti st nm).2 ∧ PExt st (extVar ti st nm).2 ∧ (extVar ti st nm).2.ext.lookup nm = some (extVar ti st nm).1 := by
  unfold extVar
  cases hl : st.ext.lookup nm with
  | some x => exact ⟨h, PExt.refl st, hl⟩
  | none =>
    obtain ⟨g1, g2, g3⟩ := VarBank.getFresh_spec h.bank ti
    have hinv := VarBank.inv_getFresh h.bank ti
    set y := (st.bank.getFresh ti).1 with hy
    set b := (st.bank.getFresh ti).2 with hb
    have hcnt : b.vcnt ti = st.bank.vcnt ti + 1 := by rw [g3 ti, if_pos rfl]
    have hpre : (st.bank.vstk ti).take (st.bank.vcnt ti) = (b.vstk ti).take (st.bank.vcnt ti) := by
      obtain ⟨s, hs⟩ := g2 ti
      rw [← hs, List.take_append_of_le_length (h.bank.cnt ti)]
    have hmem : ∀ z, z ∈ (st.bank.vstk ti).take (st.bank.vcnt ti) → z ≠ y ∧ z ∈ (b.vstk ti).take (b.vcnt ti) := by
      intro z hz
      rw [hpre] at hz
      constructor
      · rintro rfl
        have hz' : b.vstk ti = (b.vstk ti).take (st.bank.vcnt ti) ++ (b.vstk ti).drop (st.bank.vcnt ti) := (List.take_append_drop _ _).symm
        have hnd := hinv.nodup ti
        rw [hz', List.nodup_append] at hnd
        refine hnd.2.2 _ hz y ?_ rfl
        rw [List.mem_iff_getElem?]
        exact ⟨0, by rw [List.getElem?_drop]; simpa using g1⟩
      · rw [hcnt]
        exact (List.take_subset_take_left _ (Nat.le_succ _)) hz
    have hy' : y ∈ (b.vstk ti).take (b.vcnt ti) := by
      rw [hcnt, List.mem_iff_getElem?]
      exact ⟨st.bank.vcnt ti, by rw [List.getElem?_take, if_pos (Nat.lt_succ_self _)]; exact g1⟩
    have hlook : ∀ nm' z, ((nm, y) :: st.ext).lookup nm' = some z → (nm' = nm ∧ z = y) ∨ (nm' ≠ nm ∧ st.ext.lookup nm' = some z) := by
      intro nm' z hz
      rw [List.lookup_cons] at hz
      by_cases e : nm' = nm
      · subst e; simp at hz; exact Or.inl ⟨rfl, hz.symm⟩
      · have : (nm' == nm) = false := by simpa using e
        rw [this] at hz; exact Or.inr ⟨e, hz⟩
    refine ⟨{ sig := h.sig, tf := h.tf, bank := hinv, inj := ?_, used := ?_ }, ⟨sigExt_refl _, ?_⟩, by simp⟩
    · intro n1 n2 z h1 h2
      rcases hlook n1 z h1 with ⟨e1, r1⟩ | ⟨e1, r1⟩ <;> rcases hlook n2 z h2 with ⟨e2, r2⟩ | ⟨e2, r2⟩
      · rw [e1, e2]
      · exact absurd r1 (hmem z (h.used _ _ r2)).1
      · exact absurd r2 (hmem z (h.used _ _ r1)).1
      · exact h.inj _ _ _ r1 r2
    · intro n1 z h1
      rcases hlook n1 z h1 with ⟨e1, r1⟩ | ⟨e1, r1⟩
      · rw [r1]; exact hy'
      · exact (hmem z (h.used _ _ r1)).2
    · intro n1 z h1
      have : (n1 == nm) = false := by
        by_contra hne
        have : n1 = nm := by simpa using hne
        rw [this, hl] at h1; cases h1
      rw [List.lookup_cons, this]; exact h1

/-! ## Relating what was printed to what is read -/

/-- The symbols have the same name and arity. -/
def SymRel (V : Vocab) (sg sg' : SigTab) (f g : Nat) : Prop :=
  ∃ e e', sg.entry f = some e ∧ sg'.entry g = some e' ∧ V.ok e.pname e.arity ∧ V.ok e'.pname e'.arity ∧
    rawName e.pname = rawName e'.pname ∧ e.arity = e'.arity

theorem SymRel.mono {sg sg' sg'' : SigTab} {f g : Nat} (h : SymRel V sg sg' f g) (hs : SigExt sg' sg'') : SymRel V sg sg'' f g := by
  obtain ⟨e, e', h1, h2, h3, h4, h5, h6⟩ := h
  obtain ⟨e2, k1, k2, k3, k4⟩ := hs g e' h2
  exact ⟨e, e2, h1, k1, h3, by rw [k3, k4]; exact h4, by rw [k3]; exact h5, by rw [k4]; exact h6⟩

theorem SymRel.pred {sg sg' : SigTab} {f g : Nat} (h : SymRel V sg sg' f g) : isPredSym V sg' g = isPredSym V sg f := by
  obtain ⟨e, e', h1, h2, h3, h4, h5, h6⟩ := h
  simp only [isPredSym, h1, h2, h5, h6]

theorem SymRel.sym {sg sg' : SigTab} {f g : Nat} (h : SymRel V sg sg' f g) : sg'.sym g = sg.sym f := by
  obtain ⟨e, e', h1, h2, h3, h4, h5, h6⟩ := h
  simp only [SigTab.sym, h1, h2, Option.map_some, h5, h6]

theorem SymRel.left {sg sg' : SigTab} (hs : SigFor V sg) {f f' g : Nat} (h : SymRel V sg sg' f g) (h' : SymRel V sg sg' f' g) : f = f' := by
  obtain ⟨e, e', h1, h2, h3, h4, h5, h6⟩ := h
  obtain ⟨d, d', k1, k2, k3, k4, k5, k6⟩ := h'
  rw [h2] at k2; cases k2
  refine hs.sym_inj h4 (n := e'.arity) ?_ ?_
  · simp only [SigTab.sym, h1, Option.map_some, h5, h6]
  · simp only [SigTab.sym, k1, Option.map_some, k5, k6]

theorem SymRel.right {sg sg' : SigTab} (hs : SigFor V sg') {f g g' : Nat} (h : SymRel V sg sg' f g) (h' : SymRel V sg sg' f g') : g = g' := by
  obtain ⟨e, e', h1, h2, h3, h4, h5, h6⟩ := h
  obtain ⟨d, d', k1, k2, k3, k4, k5, k6⟩ := h'
  rw [h1] at k1; cases k1
  refine hs.sym_inj h3 (n := e.arity) ?_ ?_
  · simp only [SigTab.sym, h2, Option.map_some, h5, h6]
  · simp only [SigTab.sym, k2, Option.map_some, k5, k6]

theorem symRel_tf {sg sg' : SigTab} (hV : VocabTF V) (h : SigTF sg) (h' : SigTF sg') : SymRel V sg sg' 1 1 ∧ SymRel V sg sg' 2 2 := by
  obtain ⟨e, h1, h2, h3, _⟩ := h.t
  obtain ⟨d, k1, k2, k3, _⟩ := h.f
  obtain ⟨e', h1', h2', h3', _⟩ := h'.t
  obtain ⟨d', k1', k2', k3', _⟩ := h'.f
  exact ⟨⟨e, e', h1, h1', by rw [h2, h3]; exact hV.t_ok, by rw [h2', h3']; exact hV.t_ok, by rw [h2, h2'], by rw [h3, h3']⟩,
    ⟨d, d', k1, k1', by rw [k2, k3]; exact hV.f_ok, by rw [k2', k3']; exact hV.f_ok, by rw [k2, k2'], by rw [k3, k3']⟩⟩

mutual
/-- Terms related by a relation of symbols and a relation of variables. -/
def TRel (S R : Nat → Nat → Prop) : Term → Term → Prop
  | .var x, .var y => R x y
  | .app f ts, .app g us => S f g ∧ TRels S R ts us
  | _, _ => False
def TRels (S R : Nat → Nat → Prop) : List Term → List Term → Prop
  | [], [] => True
  | t :: ts, u :: us => TRel S R t u ∧ TRels S R ts us
  | _, _ => False
end

mutual
theorem TRel.mono {S R S' R' : Nat → Nat → Prop} (hS : ∀ f g, S f g → S' f g) (hR : ∀ x y, R x y → R' x y) :
    ∀ (t u : Term), TRel S R t u → TRel S' R' t u
  | .var x, .var y, h => by simp only [TRel] at h ⊢; exact hR _ _ h
  | .app f ts, .app g us, h => by simp only [TRel] at h ⊢; exact ⟨hS _ _ h.1, TRels.mono hS hR ts us h.2⟩
  | .var _, .app _ _, h => by simp [TRel] at h
  | .app _ _, .var _, h => by simp [TRel] at h
theorem TRels.mono {S R S' R' : Nat → Nat → Prop} (hS : ∀ f g, S f g → S' f g) (hR : ∀ x y, R x y → R' x y) :
    ∀ (ts us : List Term), TRels S R ts us → TRels S' R' ts us
  | [], [], _ => by simp [TRels]
  | t :: ts, u :: us, h => by simp only [TRels] at h ⊢; exact ⟨TRel.mono hS hR t u h.1, TRels.mono hS hR ts us h.2⟩
  | [], _ :: _, h => by simp [TRels] at h
  | _ :: _, [], h => by simp [TRels] at h
end

theorem TRels.length {S R : Nat → Nat → Prop} : ∀ {ts us : List Term}, TRels S R ts us → ts.length = us.length
  | [], [], _ => rfl
  | t :: ts, u :: us, h => by simp only [TRels] at h; simp [TRels.length h.2]
  | [], _ :: _, h => by simp [TRels] at h
  | _ :: _, [], h => by simp [TRels] at h

/-- What was read stands for what was printed. -/
def Rd (V : Vocab) (sg : SigTab) (st : PSt) : Term → Term → Prop :=
  TRel (SymRel V sg st.sig) (fun x y => st.ext.lookup (varName x) = some y)

theorem Rd.mono {sg : SigTab} {st st' : PSt} (h : PExt st st') {t u : Term} (ht : Rd V sg st t u) : Rd V sg st' t u :=
  TRel.mono (fun _ _ hs => hs.mono h.sig) (fun _ _ hr => h.ext _ _ hr) t u ht

def Rds (V : Vocab) (sg : SigTab) (st : PSt) : List Term → List Term → Prop :=
  TRels (SymRel V sg st.sig) (fun x y => st.ext.lookup (varName x) = some y)

theorem Rds.mono {sg : SigTab} {st st' : PSt} (h : PExt st st') {t u : List Term} (ht : Rds V sg st t u) : Rds V sg st' t u :=
  TRels.mono (fun _ _ hs => hs.mono h.sig) (fun _ _ hr => h.ext _ _ hr) t u ht

theorem POK.withSig {ti : Nat} {st : PSt} (h : POK V ti st) {sg : SigTab} (h1 : SigFor V sg) (h2 : SigTF sg) :
    POK V ti { st with sig := sg } :=
  { sig := h1, tf := h2, bank := h.bank, inj := h.inj, used := h.used }

/-- Declaring the symbol of a term that stands for a function term. -/
theorem declFn_spec {sg : SigTab} (hV : VocabTF V) {ti : Nat} {st : PSt} (h : POK V ti st) {t u : Term} (ht : FnTerm V sg t) (hr : Rd V sg st t u) :
    ∃ st', declFn st u = some st' ∧ POK V ti st' ∧ PExt st st' := by
  cases u with
  | var y => exact ⟨st, rfl, h, PExt.refl st⟩
  | app g us =>
    cases t with
    | var x => simp [Rd, TRel] at hr
    | app f ts =>
      simp only [Rd, TRel] at hr
      simp only [FnTerm] at ht
      have hp : isPredSym V st.sig g = false := by rw [hr.1.pred]; exact ht.2.1
      obtain ⟨e, e', h1, h2, h3, h4, h5, h6⟩ := hr.1
      have hp' : V.pred (rawName e'.pname) e'.arity = false := by simpa [isPredSym, h2] using hp
      have hrole := h.sig.role e' (entry_mem h2) h4
      have hne : st.sig.roleOf g ≠ some .pred := by
        simp only [SigTab.roleOf, h2, Option.map_some, ne_eq, Option.some.injEq]
        rw [hp'] at hrole
        rcases hrole with e | e <;> rw [e] <;> simp
      have hg := entry_ne_zero h2
      have hg12 : g ≠ 1 ∧ g ≠ 2 := by
        obtain ⟨q1, q2⟩ := isPred_tf hV h.tf
        constructor
        · rintro rfl; rw [hp] at q1; cases q1
        · rintro rfl; rw [hp] at q2; cases q2
      refine ⟨{ st with sig := st.sig.setRole g .fn }, by simp only [declFn, if_neg hne], ?_, ⟨SigExt.setRole _ hg _, fun _ _ e => e⟩⟩
      exact h.withSig (h.sig.setRole h2 (by rw [hp']; rfl)) (h.tf.setRole hg (Or.inr hg12))

theorem varName_inj {x y : Nat} (h : varName x = varName y) : x = y := by
  simp only [varName, List.cons.injEq] at h
  obtain ⟨h1, h2⟩ := h
  have := dec_inj h2
  split at h1 <;> split at h1
  · omega
  · simp at h1
  · simp at h1
  · omega

theorem varTok_spec (x : Nat) (ts : List Tok) (h : akt ts ≠ .openBracket) :
    isFuncSym (wordTok (varName x)).tok = true ∧ isVarTok (wordTok (varName x)) ts = true ∧ (wordTok (varName x)).lit = varName x ∧
      varName x ≠ "$distinct".toList := by
  have hw := wordTok_cases (varName x)
  have hu : ((if x % 2 = 1 then 'Y' else 'X').isUpper || (if x % 2 = 1 then 'Y' else 'X') == '_') = true := by split <;> decide
  refine ⟨?_, ?_, rfl, ?_⟩
  · rcases hw with e | e <;> rw [e] <;> rfl
  · have e : (wordTok (varName x)).lit = (if x % 2 = 1 then 'Y' else 'X') :: dec ((x + 1) / 2) := rfl
    simp only [isVarTok, e, hu]
    rcases hw with e' | e' <;> simp [e', h]
  · unfold varName
    split <;> simp

theorem nameTok_spec {nm : List Char} (h : NameOK nm) (ts : List Tok) :
    isFuncSym (nameTok nm).tok = true ∧ isVarTok (nameTok nm) ts = false ∧ nm ≠ "$distinct".toList := by
  refine ⟨nameTok_func nm, ?_, ?_⟩
  · unfold isVarTok
    rw [nameTok_lit]
    rcases h with ⟨c, cs, rfl, hc, _⟩ | ⟨cs, rfl, _⟩ | ⟨b, rfl, _⟩ | ⟨b, rfl, _⟩
    · have h1 : c.isUpper = false := by
        rw [Bool.eq_false_iff]
        intro hu
        simp only [Char.isUpper, Char.isLower, Bool.and_eq_true, decide_eq_true_eq] at hu hc
        have a := UInt32.le_iff_toNat_le.1 hu.2
        have b := UInt32.le_iff_toNat_le.1 hc.1
        have : ('a'.val).toNat ≤ ('Z'.val).toNat := le_trans b a
        revert this; decide
      have h2 : c ≠ '_' := by rintro rfl; revert hc; decide
      simp [h1, h2]
    all_goals simp [Char.isUpper]
  · rcases h with ⟨c, cs, rfl, hc, _⟩ | ⟨cs, rfl, _, _, _, _, h⟩ | ⟨b, rfl, _⟩ | ⟨b, rfl, _⟩
    · have : c ≠ '$' := by rintro rfl; revert hc; decide
      simp [this]
    · exact h
    · simp
    · simp

theorem toksTerm_head (sg : SigTab) (u : Term) : ∃ t ts', toksTerm sg u = t :: ts' ∧ isFuncSym t.tok = true := by
  cases u with
  | var x => exact ⟨wordTok (varName x), [], by simp only [toksTerm], (varTok_spec x [] (by simp [akt])).1⟩
  | app g vs => exact ⟨nameTok (symName sg g), toksArgs sg vs, by simp only [toksTerm], nameTok_func _⟩

/-- What may follow a term. -/
def After (ts : List Tok) : Prop := akt ts ≠ .openBracket ∧ akt ts ≠ .colon

theorem after_rest (sg : SigTab) (us : List Term) (ts : List Tok) : After (toksRest sg us ++ ts) := by
  cases us <;> simp [After, toksRest, akt, tkClose, tkComma]

theorem insert_spec {sg : SigTab} {ti : Nat} {st : PSt} (h : POK V ti st) {f n : Nat} (hs : SymOK V sg f n) :
    let r := sigInsert st.sig (symName sg f) n
    POK V ti { st with sig := r.2 } ∧ PExt st { st with sig := r.2 } ∧ SymRel V sg r.2 f r.1 := by
  obtain ⟨e, he, rfl, ok⟩ := hs
  simp only [symName, he]
  obtain ⟨h1, h2, e', h3, h4, h5, h6, h7⟩ := sigInsert_spec h.sig ok
  refine ⟨h.withSig h1 (h.tf.insert _ _), ⟨h2, fun _ _ e => e⟩, e, e', he, h3, ok, h5, h6.symm, h7.symm⟩

mutual
theorem parse_term (hV : VocabTF V) (sg : SigTab) (ti : Nat) : ∀ (t : Term) {st : PSt} {ts : List Tok} {n : Nat}, TopOK V sg t → POK V ti st → After ts →
    (toksTerm sg t).length ≤ n →
    ∃ t' st', parseTerm ti n st (toksTerm sg t ++ ts) = some (t', st', ts) ∧ POK V ti st' ∧ PExt st st' ∧ Rd V sg st' t t'
  | .var x, st, ts, n, _, hok, ha, hn => by
    simp only [toksTerm, List.length_singleton] at hn
    obtain ⟨m, rfl⟩ : ∃ m, n = m + 1 := ⟨n - 1, by omega⟩
    obtain ⟨h1, h2, h3, h4⟩ := varTok_spec x ts ha.1
    obtain ⟨k1, k2, k3⟩ := extVar_spec hok (varName x)
    refine ⟨.var (extVar ti st (varName x)).1, _, ?_, k1, k2, ?_⟩
    rotate_left
    · simp only [Rd, TRel]; exact k3
    · simp only [toksTerm, List.singleton_append, parseTerm, h1, h2, h3, h4, ha.2, Bool.not_true, Bool.false_or, decide_false, Bool.false_eq_true, if_false, if_true]
  | .app f [], st, ts, n, ht, hok, ha, hn => by
    simp only [toksTerm, toksArgs, List.length_singleton] at hn
    obtain ⟨m, rfl⟩ : ∃ m, n = m + 1 := ⟨n - 1, by omega⟩
    obtain ⟨h1, h2, h3⟩ := nameTok_spec ht.1.name ts
    obtain ⟨k1, k2, k3⟩ := insert_spec hok ht.1
    refine ⟨.app (sigInsert st.sig (symName sg f) 0).1 [], _, ?_, k1, k2, ?_⟩
    rotate_left
    · simp only [Rd, TRel]; exact ⟨k3, by simp [TRels]⟩
    · simp only [toksTerm, toksArgs, List.singleton_append, parseTerm, h1, h2, h3, nameTok_lit, ha.1, Bool.not_true, Bool.false_or, decide_false, Bool.false_eq_true,
        if_false, List.length_nil]
  | .app f (u :: us), st, ts, n, ht, hok, ha, hn => by
    have hlen : (toksTerm sg (.app f (u :: us))).length = 2 + (toksTerm sg u ++ toksRest sg us).length := by
      simp [toksTerm, toksArgs]; omega
    rw [hlen] at hn
    obtain ⟨m, rfl⟩ : ∃ m, n = m + 2 := ⟨n - 2, by omega⟩
    obtain ⟨h1, h2, h3⟩ := nameTok_spec ht.1.name (tkOpen :: (toksTerm sg u ++ toksRest sg us) ++ ts)
    have hcl : akt ((toksTerm sg u ++ toksRest sg us) ++ ts) ≠ .closeBracket := by
      obtain ⟨t, ts', e, hf⟩ := toksTerm_head sg u
      rw [e]
      show t.tok ≠ _
      intro hc; rw [hc] at hf; revert hf; decide
    obtain ⟨as, st1, hp, k1, k2, k3⟩ := parse_args hV sg ti u us ht.2 hok (ts := ts) (n := m) (by omega)
    obtain ⟨j1, j2, j3⟩ := insert_spec k1 ht.1
    have hl : as.length = (u :: us).length := (TRels.length k3).symm
    refine ⟨.app (sigInsert st1.sig (symName sg f) (u :: us).length).1 as, _, ?_, j1, k2.trans j2, ?_⟩
    rotate_left
    · simp only [Rd, TRel]; exact ⟨j3, Rds.mono j2 k3⟩
    · have e : toksTerm sg (.app f (u :: us)) ++ ts = nameTok (symName sg f) :: (tkOpen :: (toksTerm sg u ++ toksRest sg us) ++ ts) := by
        simp [toksTerm, toksArgs]
      rw [e]
      have ea : akt (tkOpen :: (toksTerm sg u ++ toksRest sg us) ++ ts) = .openBracket := rfl
      have et : (tkOpen :: (toksTerm sg u ++ toksRest sg us) ++ ts).tail = (toksTerm sg u ++ toksRest sg us) ++ ts := rfl
      simp only [parseTerm, h1, h2, h3, nameTok_lit, ea, et, Bool.not_true, Bool.false_or, decide_false, Bool.false_eq_true,
        if_false, if_true, parseArgs, if_neg hcl, hp, hl]
theorem parse_args (hV : VocabTF V) (sg : SigTab) (ti : Nat) : ∀ (u : Term) (us : List Term) {st : PSt} {ts : List Tok} {n : Nat}, FnTerms V sg (u :: us) → POK V ti st →
    (toksTerm sg u ++ toksRest sg us).length ≤ n →
    ∃ as st', parseArgs1 ti n st ((toksTerm sg u ++ toksRest sg us) ++ ts) = some (as, st', ts) ∧ POK V ti st' ∧ PExt st st' ∧ Rds V sg st' (u :: us) as
  | u, [], st, ts, n, ht, hok, hn => by
    simp only [FnTerms] at ht
    simp only [toksRest, List.length_append, List.length_singleton] at hn
    obtain ⟨m, rfl⟩ : ∃ m, n = m + 1 := ⟨n - 1, by omega⟩
    obtain ⟨t', st1, hp, k1, k2, k3⟩ := parse_term hV sg ti u (ts := tkClose :: ts) (n := m) ht.1.top hok (by simp [After, akt, tkClose]) (by omega)
    obtain ⟨st2, hd, l1, l2⟩ := declFn_spec hV k1 ht.1 k3
    refine ⟨[t'], st2, ?_, l1, k2.trans l2, ?_⟩
    · have e : (toksTerm sg u ++ toksRest sg []) ++ ts = toksTerm sg u ++ tkClose :: ts := by simp [toksRest]
      rw [e]
      have ea : akt (tkClose :: ts) ≠ .comma := by simp [akt, tkClose]
      simp only [parseArgs1, hp, hd, if_neg ea]
      rfl
    · simp only [Rds, TRels]; exact ⟨Rd.mono l2 k3, trivial⟩
  | u, v :: us, st, ts, n, ht, hok, hn => by
    have hF : FnTerm V sg u ∧ FnTerms V sg (v :: us) := by simpa only [FnTerms] using ht
    simp only [toksRest, List.length_append, List.length_cons] at hn
    obtain ⟨m, rfl⟩ : ∃ m, n = m + 1 := ⟨n - 1, by omega⟩
    obtain ⟨t', st1, hp, k1, k2, k3⟩ := parse_term hV sg ti u (ts := tkComma :: ((toksTerm sg v ++ toksRest sg us) ++ ts)) (n := m) hF.1.top hok
      (by simp [After, akt, tkComma]) (by omega)
    obtain ⟨st2, hd, l1, l2⟩ := declFn_spec hV k1 hF.1 k3
    obtain ⟨as, st3, hq, j1, j2, j3⟩ := parse_args hV sg ti v us (ts := ts) (n := m) hF.2 l1 (by simp only [List.length_append]; omega)
    refine ⟨t' :: as, st3, ?_, j1, (k2.trans l2).trans j2, ?_⟩
    · have e : (toksTerm sg u ++ toksRest sg (v :: us)) ++ ts = toksTerm sg u ++ tkComma :: ((toksTerm sg v ++ toksRest sg us) ++ ts) := by
        simp [toksRest]
      rw [e]
      have ea : akt (tkComma :: ((toksTerm sg v ++ toksRest sg us) ++ ts)) = .comma := rfl
      simp only [parseArgs1, hp, hd, ea, if_true, List.tail_cons, hq]
    · simp only [Rds, TRels]; exact ⟨Rd.mono (l2.trans j2) k3, j3⟩
end

end Text

end Verif
