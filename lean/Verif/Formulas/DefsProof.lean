import Verif.Formulas.Defs
import Verif.Formulas.CNFSet

/-!
# Introduction of definitions: proofs
-/

namespace Verif.CNFProof
open Form SemProof Props

universe u

variable {sg : Sig}

/-! ## The table of definitions -/

/-- The predicate is inherited by subformulas. -/
structure SubClosed (Q : Form → Prop) : Prop where
  not : ∀ f, Q (.not f) → Q f
  left : ∀ op f g, Q (.bin op f g) → Q f
  right : ∀ op f g, Q (.bin op f g) → Q g
  qu : ∀ q x f, Q (.qu q x f) → Q f

/-- What is known of the table while it is filled. -/
structure DefsInv (n : Nat) (Q : Form → Prop) (s : Defs) : Prop where
  codes : s.list.map DefEntry.code = List.range' n s.list.length
  next : s.next = n + s.list.length
  forms : (s.list.map DefEntry.form).Nodup
  vars : ∀ e ∈ s.list, e.vars = collectFree e.form (fun _ => false) []
  q : ∀ e ∈ s.list, Q e.form

theorem has_iff {s : Defs} {f : Form} : s.has f = true ↔ ∃ e ∈ s.list, e.form = f := by
  simp [Defs.has]

theorem defRename_inv {n : Nat} {Q : Form → Prop} {s : Defs} (h : DefsInv n Q s) {f : Form} (hf : Q f) : DefsInv n Q (defRename s f) := by
  unfold defRename
  split
  · exact h
  · rename_i hh
    refine ⟨?_, ?_, ?_, ?_, ?_⟩
    · simp only [List.map_append, List.map_cons, List.map_nil, List.length_append, List.length_cons, List.length_nil, h.codes, h.next]
      rw [List.range'_concat]
      simp
    · simp only [List.length_append, List.length_cons, List.length_nil, h.next]; omega
    · simp only [List.map_append, List.map_cons, List.map_nil]
      refine List.nodup_append.2 ⟨h.forms, by simp, ?_⟩
      intro a ha b hb e
      obtain ⟨d, hd, rfl⟩ := List.mem_map.1 ha
      simp only [List.mem_singleton] at hb
      exact hh (has_iff.2 ⟨d, hd, e.trans hb⟩)
    · intro e he
      rcases List.mem_append.1 he with he | he
      · exact h.vars e he
      · simp only [List.mem_singleton] at he; subst he; rfl
    · intro e he
      rcases List.mem_append.1 he with he | he
      · exact h.q e he
      · simp only [List.mem_singleton] at he; subst he; exact hf

theorem tryDef_inv {n : Nat} {Q : Form → Prop} {s : Defs} (h : DefsInv n Q s) {f : Form} (hf : Q f) (limit : Int) (op : Option BOp) (pol : Int) :
    DefsInv n Q (tryDef limit op f pol s) := by
  unfold tryDef
  split
  · exact defRename_inv h hf
  · exact h

theorem findDefs_inv {n : Nat} {Q : Form → Prop} (hq : SubClosed Q) (limit : Int) (f : Form) : ∀ (pol : Int) {s : Defs}, DefsInv n Q s → Q f →
    DefsInv n Q (f.findDefs limit pol s) := by
  induction f with
  | lit => exact fun _ _ h _ => h
  | atom => exact fun _ _ h _ => h
  | not f ih => exact fun pol s h hf => tryDef_inv (ih _ h (hq.not _ hf)) (hq.not _ hf) _ _ _
  | qu q x f ih => exact fun pol s h hf => tryDef_inv (ih _ h (hq.qu _ _ _ hf)) (hq.qu _ _ _ hf) _ _ _
  | bin op f g ih1 ih2 =>
    intro pol s h hf
    have h1 := hq.left _ _ _ hf
    have h2 := hq.right _ _ _ hf
    cases op with
    | and => exact tryDef_inv (ih2 _ (tryDef_inv (ih1 _ h h1) h1 _ _ _) h2) h2 _ _ _
    | or => exact tryDef_inv (ih2 _ (tryDef_inv (ih1 _ h h1) h1 _ _ _) h2) h2 _ _ _
    | impl => exact tryDef_inv (ih2 _ (tryDef_inv (ih1 _ h h1) h1 _ _ _) h2) h2 _ _ _
    | equiv => exact tryDef_inv (ih2 _ (tryDef_inv (ih1 _ h h1) h1 _ _ _) h2) h2 _ _ _
    | nand => exact h
    | nor => exact h
    | bimpl => exact h
    | xor => exact h

theorem formulasFindDefs_inv {n : Nat} {Q : Form → Prop} (hq : SubClosed Q) (limit : Int) (ws : List WForm) (hw : ∀ w ∈ ws, Q w.form) :
    DefsInv n Q (formulasFindDefs limit ws n) := by
  have : ∀ (ws : List WForm) (s : Defs), (∀ w ∈ ws, Q w.form) → DefsInv n Q s →
      DefsInv n Q (ws.foldl (fun s w => if w.isClause = false ∧ limit ≠ 0 then w.form.findDefs limit 1 s else s) s) := by
    intro ws
    induction ws with
    | nil => exact fun s _ h => h
    | cons w ws ih =>
      intro s hw h
      refine ih _ (fun w' hw' => hw w' (List.mem_cons_of_mem _ hw')) ?_
      show DefsInv n Q (if _ then _ else _)
      split
      · exact findDefs_inv hq limit _ _ h (hw w (List.mem_cons_self ..))
      · exact h
  exact this ws _ hw ⟨rfl, rfl, by simp, by simp, by simp⟩

theorem DefsInv.codeIn {n : Nat} {Q : Form → Prop} {s : Defs} (h : DefsInv n Q s) {e : DefEntry} (he : e ∈ s.list) : CodesIn n s.next e.code := by
  have : e.code ∈ s.list.map DefEntry.code := List.mem_map.2 ⟨e, he, rfl⟩
  rw [h.codes, List.mem_range'_1] at this
  exact ⟨this.1, by rw [h.next]; exact this.2⟩

theorem DefsInv.formInj {n : Nat} {Q : Form → Prop} {s : Defs} (h : DefsInv n Q s) {e e' : DefEntry} (he : e ∈ s.list) (he' : e' ∈ s.list) (hf : e.form = e'.form) :
    e = e' := List.inj_on_of_nodup_map h.forms he he' hf

theorem DefsInv.codesNodup {n : Nat} {Q : Form → Prop} {s : Defs} (h : DefsInv n Q s) : (s.list.map DefEntry.code).Nodup := by
  rw [h.codes]; exact List.nodup_range'

theorem DefsInv.codeInj {n : Nat} {Q : Form → Prop} {s : Defs} (h : DefsInv n Q s) {e e' : DefEntry} (he : e ∈ s.list) (he' : e' ∈ s.list) (hf : e.code = e'.code) :
    e = e' := List.inj_on_of_nodup_map h.codesNodup he he' hf

/-! ## Copying with definitions -/

theorem usable_some {list : List DefEntry} {b : Option Nat} {f : Form} {e : DefEntry} (h : usable list b f = some e) : e ∈ list ∧ e.form = f ∧ some e.code ≠ b := by
  unfold usable at h
  split at h
  · rename_i e' he
    split at h
    · cases h
    · rename_i hn
      cases h
      have h1 := List.mem_of_find?_eq_some he
      have h2 := List.find?_some he
      exact ⟨h1, by simpa using h2, hn⟩
  · cases h

theorem usable_none {n : Nat} {Q : Form → Prop} {s : Defs} (hi : DefsInv n Q s) {b : Option Nat} {f : Form} (h : usable s.list b f = none) {e : DefEntry} (he : e ∈ s.list) (hf : e.form = f) :
    some e.code = b := by
  unfold usable at h
  split at h
  · rename_i e' he'
    split at h
    · rename_i hn
      have h1 := List.mem_of_find?_eq_some he'
      have h2 : e'.form = f := by simpa using List.find?_some he'
      rw [hi.formInj he h1 (hf.trans h2.symm)]
      exact hn
    · cases h
  · rename_i hn
    have := List.find?_eq_none.1 hn e he
    simp [hf] at this

theorem usable_self {n : Nat} {Q : Form → Prop} {s : Defs} (hi : DefsInv n Q s) {e : DefEntry} (he : e ∈ s.list) : usable s.list (some e.code) e.form = none := by
  cases h : usable s.list (some e.code) e.form with
  | none => rfl
  | some e' =>
    obtain ⟨h1, h2, h3⟩ := usable_some h
    rw [hi.formInj h1 he h2] at h3
    exact (h3 rfl).elim

/-- The formula with its immediate subformulas replaced. -/
def copyNode (list : List DefEntry) (b : Option Nat) : Form → Form
  | .lit p l r => .lit p l r
  | .atom t => .atom t
  | .not f => .not (f.copyDef list b)
  | .bin op f g => .bin op (f.copyDef list b) (g.copyDef list b)
  | .qu u x f => .qu u x (f.copyDef list b)

theorem copyDef_none {list : List DefEntry} {b : Option Nat} {f : Form} (h : usable list b f = none) : f.copyDef list b = copyNode list b f := by
  cases f <;> simp only [copyDef, copyNode] <;> simp [h]

theorem copyDef_some {list : List DefEntry} {b : Option Nat} {f : Form} {e : DefEntry} (h : usable list b f = some e) :
    f.copyDef list b = e.atom ∨ f.copyDef list b = copyNode list b f := by
  cases f <;> simp only [copyDef, copyNode] <;> simp [h]

theorem copyDef_cases (list : List DefEntry) (b : Option Nat) (f : Form) :
    (∃ e, usable list b f = some e ∧ f.copyDef list b = e.atom) ∨ f.copyDef list b = copyNode list b f := by
  cases h : usable list b f with
  | none => exact .inr (copyDef_none h)
  | some e =>
    rcases copyDef_some h with h1 | h1
    · exact .inl ⟨e, rfl, h1⟩
    · exact .inr h1

/-! ## Polarities -/

/-- A literal, or marked with the sign. -/
def Marked (M : List (Form × Bool)) (s : Bool) : Form → Prop
  | .lit _ _ _ => True
  | f => (f, s) ∈ M

/-- The signs a polarity stands for. -/
def Signs (pol : Int) (s : Bool) : Prop := (pol = -1 ∧ s = false) ∨ (pol = 0) ∨ (pol = 1 ∧ s = true)

/-- Marks are passed on to the subformulas. -/
structure MarksClosed (M : List (Form × Bool)) : Prop where
  not : ∀ f s, (Form.not f, s) ∈ M → Marked M (!s) f
  qu : ∀ q x f s, (Form.qu q x f, s) ∈ M → Marked M s f
  and : ∀ f g s, (Form.bin .and f g, s) ∈ M → Marked M s f ∧ Marked M s g
  or : ∀ f g s, (Form.bin .or f g, s) ∈ M → Marked M s f ∧ Marked M s g
  impl : ∀ f g s, (Form.bin .impl f g, s) ∈ M → Marked M (!s) f ∧ Marked M s g
  equiv : ∀ f g s, (Form.bin .equiv f g, s) ∈ M → ∀ t, Marked M t f ∧ Marked M t g

theorem Marked.mono {M N : List (Form × Bool)} (h : ∀ x ∈ M, x ∈ N) {s : Bool} {f : Form} (hm : Marked M s f) : Marked N s f := by
  cases f with
  | lit => trivial
  | _ => exact h _ hm

theorem mem_polMarks {pol : Int} (hp : pol = -1 ∨ pol = 0 ∨ pol = 1) {f g : Form} {s : Bool} : (g, s) ∈ polMarks pol f ↔ g = f ∧ Signs pol s := by
  rcases hp with rfl | rfl | rfl
  · simp [polMarks, Signs]
  · cases s <;> simp [polMarks, Signs]
  · simp [polMarks, Signs]

theorem polMarks_sub (f : Form) (pol : Int) : (∃ p l r, f = .lit p l r) ∨ ∀ x ∈ polMarks pol f, x ∈ f.markPolarity pol := by
  cases f with
  | lit p l r => exact .inl ⟨p, l, r, rfl⟩
  | atom t => exact .inr fun x h => h
  | not f => exact .inr fun x h => List.mem_append_left _ h
  | qu q x f => exact .inr fun x h => List.mem_append_left _ h
  | bin op f g =>
    cases op with
    | nand => exact .inr fun x h => h
    | nor => exact .inr fun x h => h
    | bimpl => exact .inr fun x h => h
    | xor => exact .inr fun x h => h
    | _ => exact .inr fun x h => List.mem_append_left _ (List.mem_append_left _ h)

theorem mark_root {pol : Int} (hp : pol = -1 ∨ pol = 0 ∨ pol = 1) {f : Form} {s : Bool} (h : Signs pol s) : Marked (f.markPolarity pol) s f := by
  rcases polMarks_sub f pol with ⟨p, l, r, rfl⟩ | h1
  · trivial
  · have := h1 _ ((mem_polMarks hp (f := f)).2 ⟨rfl, h⟩)
    cases f with
    | lit => trivial
    | _ => exact this

theorem MarksClosed.append {M N : List (Form × Bool)} (h : MarksClosed M) (h' : MarksClosed N) : MarksClosed (M ++ N) := by
  have l : ∀ x ∈ M, x ∈ M ++ N := fun x hx => List.mem_append_left _ hx
  have r : ∀ x ∈ N, x ∈ M ++ N := fun x hx => List.mem_append_right _ hx
  refine ⟨?_, ?_, ?_, ?_, ?_, ?_⟩
  · intro f s hm; rcases List.mem_append.1 hm with hm | hm
    exacts [(h.not f s hm).mono l, (h'.not f s hm).mono r]
  · intro q x f s hm; rcases List.mem_append.1 hm with hm | hm
    exacts [(h.qu q x f s hm).mono l, (h'.qu q x f s hm).mono r]
  · intro f g s hm; rcases List.mem_append.1 hm with hm | hm
    exacts [⟨(h.and f g s hm).1.mono l, (h.and f g s hm).2.mono l⟩, ⟨(h'.and f g s hm).1.mono r, (h'.and f g s hm).2.mono r⟩]
  · intro f g s hm; rcases List.mem_append.1 hm with hm | hm
    exacts [⟨(h.or f g s hm).1.mono l, (h.or f g s hm).2.mono l⟩, ⟨(h'.or f g s hm).1.mono r, (h'.or f g s hm).2.mono r⟩]
  · intro f g s hm; rcases List.mem_append.1 hm with hm | hm
    exacts [⟨(h.impl f g s hm).1.mono l, (h.impl f g s hm).2.mono l⟩, ⟨(h'.impl f g s hm).1.mono r, (h'.impl f g s hm).2.mono r⟩]
  · intro f g s hm t; rcases List.mem_append.1 hm with hm | hm
    exacts [⟨(h.equiv f g s hm t).1.mono l, (h.equiv f g s hm t).2.mono l⟩, ⟨(h'.equiv f g s hm t).1.mono r, (h'.equiv f g s hm t).2.mono r⟩]

/-- Marks for the root can be added if the subformulas have theirs. -/
theorem MarksClosed.root {M : List (Form × Bool)} (h : MarksClosed M) {N : List (Form × Bool)}
    (h1 : ∀ g s, (Form.not g, s) ∈ N → Marked M (!s) g) (h2 : ∀ q x g s, (Form.qu q x g, s) ∈ N → Marked M s g)
    (h3 : ∀ g g' s, (Form.bin .and g g', s) ∈ N → Marked M s g ∧ Marked M s g') (h4 : ∀ g g' s, (Form.bin .or g g', s) ∈ N → Marked M s g ∧ Marked M s g')
    (h5 : ∀ g g' s, (Form.bin .impl g g', s) ∈ N → Marked M (!s) g ∧ Marked M s g')
    (h6 : ∀ g g' s, (Form.bin .equiv g g', s) ∈ N → ∀ t, Marked M t g ∧ Marked M t g') : MarksClosed (N ++ M) := by
  have r : ∀ x ∈ M, x ∈ N ++ M := fun x hx => List.mem_append_right _ hx
  refine ⟨?_, ?_, ?_, ?_, ?_, ?_⟩
  · intro f s hm; rcases List.mem_append.1 hm with hm | hm
    exacts [(h1 f s hm).mono r, (h.not f s hm).mono r]
  · intro q x f s hm; rcases List.mem_append.1 hm with hm | hm
    exacts [(h2 q x f s hm).mono r, (h.qu q x f s hm).mono r]
  · intro f g s hm; rcases List.mem_append.1 hm with hm | hm
    exacts [⟨(h3 f g s hm).1.mono r, (h3 f g s hm).2.mono r⟩, ⟨(h.and f g s hm).1.mono r, (h.and f g s hm).2.mono r⟩]
  · intro f g s hm; rcases List.mem_append.1 hm with hm | hm
    exacts [⟨(h4 f g s hm).1.mono r, (h4 f g s hm).2.mono r⟩, ⟨(h.or f g s hm).1.mono r, (h.or f g s hm).2.mono r⟩]
  · intro f g s hm; rcases List.mem_append.1 hm with hm | hm
    exacts [⟨(h5 f g s hm).1.mono r, (h5 f g s hm).2.mono r⟩, ⟨(h.impl f g s hm).1.mono r, (h.impl f g s hm).2.mono r⟩]
  · intro f g s hm t; rcases List.mem_append.1 hm with hm | hm
    exacts [⟨(h6 f g s hm t).1.mono r, (h6 f g s hm t).2.mono r⟩, ⟨(h.equiv f g s hm t).1.mono r, (h.equiv f g s hm t).2.mono r⟩]

theorem marksClosed_nil : MarksClosed [] := by constructor <;> simp

theorem signs_neg {pol : Int} {s : Bool} (h : Signs pol s) : Signs (-pol) (!s) := by
  rcases h with ⟨rfl, rfl⟩ | rfl | ⟨rfl, rfl⟩
  · exact .inr (.inr ⟨rfl, rfl⟩)
  · exact .inr (.inl rfl)
  · exact .inl ⟨rfl, rfl⟩

theorem pol_neg {pol : Int} (hp : pol = -1 ∨ pol = 0 ∨ pol = 1) : -pol = -1 ∨ -pol = 0 ∨ -pol = 1 := by omega

theorem markPolarity_closed (f : Form) : ∀ {pol : Int}, (pol = -1 ∨ pol = 0 ∨ pol = 1) → MarksClosed (f.markPolarity pol) := by
  induction f with
  | lit => exact fun _ => marksClosed_nil
  | atom t =>
    intro pol hp
    have := marksClosed_nil.root (N := polMarks pol (.atom t))
    simp only [List.append_nil, mem_polMarks hp, reduceCtorEq, false_and, false_implies, implies_true, forall_const] at this
    exact this
  | not f ih =>
    intro pol hp
    refine (ih (pol_neg hp)).root ?_ ?_ ?_ ?_ ?_ ?_ <;>
      simp only [mem_polMarks hp, reduceCtorEq, false_and, false_implies, implies_true]
    rintro g s ⟨hg, hs⟩
    cases hg
    exact mark_root (pol_neg hp) (signs_neg hs)
  | qu q x f ih =>
    intro pol hp
    refine (ih hp).root ?_ ?_ ?_ ?_ ?_ ?_ <;>
      simp only [mem_polMarks hp, reduceCtorEq, false_and, false_implies, implies_true]
    rintro q' x' g s ⟨hg, hs⟩
    cases hg
    exact mark_root hp hs
  | bin op f g ih1 ih2 =>
    intro pol hp
    have h0 : (0 : Int) = -1 ∨ (0 : Int) = 0 ∨ (0 : Int) = 1 := .inr (.inl rfl)
    have l : ∀ (A B : List (Form × Bool)), ∀ x ∈ A, x ∈ A ++ B := fun A B x hx => List.mem_append_left _ hx
    have r : ∀ (A B : List (Form × Bool)), ∀ x ∈ B, x ∈ A ++ B := fun A B x hx => List.mem_append_right _ hx
    cases op with
    | and =>
      simp only [markPolarity, List.append_assoc]
      refine ((ih1 hp).append (ih2 hp)).root ?_ ?_ ?_ ?_ ?_ ?_ <;>
        simp only [mem_polMarks hp, reduceCtorEq, false_and, false_implies, implies_true, Form.bin.injEq, true_and]
      rintro g g' s ⟨⟨rfl, rfl⟩, hs⟩
      exact ⟨(mark_root hp hs).mono (l _ _), (mark_root hp hs).mono (r _ _)⟩
    | or =>
      simp only [markPolarity, List.append_assoc]
      refine ((ih1 hp).append (ih2 hp)).root ?_ ?_ ?_ ?_ ?_ ?_ <;>
        simp only [mem_polMarks hp, reduceCtorEq, false_and, false_implies, implies_true, Form.bin.injEq, true_and]
      rintro g g' s ⟨⟨rfl, rfl⟩, hs⟩
      exact ⟨(mark_root hp hs).mono (l _ _), (mark_root hp hs).mono (r _ _)⟩
    | impl =>
      simp only [markPolarity, List.append_assoc]
      refine ((ih1 (pol_neg hp)).append (ih2 hp)).root ?_ ?_ ?_ ?_ ?_ ?_ <;>
        simp only [mem_polMarks hp, reduceCtorEq, false_and, false_implies, implies_true, Form.bin.injEq, true_and]
      rintro g g' s ⟨⟨rfl, rfl⟩, hs⟩
      exact ⟨(mark_root (pol_neg hp) (signs_neg hs)).mono (l _ _), (mark_root hp hs).mono (r _ _)⟩
    | equiv =>
      simp only [markPolarity, List.append_assoc]
      refine ((ih1 h0).append (ih2 h0)).root ?_ ?_ ?_ ?_ ?_ ?_ <;>
        simp only [mem_polMarks hp, reduceCtorEq, false_and, false_implies, implies_true, Form.bin.injEq, true_and]
      rintro g g' s ⟨⟨rfl, rfl⟩, hs⟩ t
      exact ⟨(mark_root h0 (.inr (.inl rfl))).mono (l _ _), (mark_root h0 (.inr (.inl rfl))).mono (r _ _)⟩
    | _ =>
      simp only [markPolarity]
      rw [← List.append_nil (polMarks _ _)]
      refine marksClosed_nil.root ?_ ?_ ?_ ?_ ?_ ?_ <;>
        simp only [mem_polMarks hp, reduceCtorEq, false_and, false_implies, implies_true, Form.bin.injEq]

theorem formulasMark_closed (ws : List WForm) : MarksClosed (formulasMark ws) := by
  induction ws with
  | nil => exact marksClosed_nil
  | cons w ws ih => exact (markPolarity_closed w.form (.inr (.inr rfl))).append ih

theorem formulasMark_root {ws : List WForm} {w : WForm} (hw : w ∈ ws) : Marked (formulasMark ws) true w.form :=
  (mark_root (pol := 1) (.inr (.inr rfl)) (.inr (.inr ⟨rfl, rfl⟩))).mono fun x hx => List.mem_flatMap.2 ⟨w, hw, hx⟩

/-! ## Replacement according to the polarity -/

/-- The definitions hold as far as their polarities require. -/
def DefsHold (I : Interp.{u} sg) (M : List (Form × Bool)) (list : List DefEntry) : Prop :=
  ∀ e ∈ list, ∀ v, I.Sorted v →
    ((e.form, true) ∈ M → e.atom.Holds I v → (e.form.copyDef list (some e.code)).Holds I v) ∧
    ((e.form, false) ∈ M → (e.form.copyDef list (some e.code)).Holds I v → e.atom.Holds I v)

theorem sorted_updv {I : Interp.{u} sg} {v : Nat → I.D} (hv : I.Sorted v) {x : Nat} {d : I.D} (hd : I.mem (sg.vty x) d) : I.Sorted (updv v x d) := by
  intro z
  unfold updv
  split
  · rename_i h; rw [h]; exact hd
  · exact hv z

/-- A positive occurrence may be replaced if the copy implies the formula, a negative one in the converse case. -/
theorem copyDef_sound {I : Interp.{u} sg} {M : List (Form × Bool)} (hM : MarksClosed M) {n : Nat} {Q : Form → Prop} {s : Defs} (hi : DefsInv n Q s) (hd : DefsHold I M s.list)
    (f : Form) : f.Basic → ∀ b v, I.Sorted v →
      (Marked M true f → (f.copyDef s.list b).Holds I v → f.Holds I v) ∧ (Marked M false f → f.Holds I v → (f.copyDef s.list b).Holds I v) := by
  -- the statement for the node follows from the one for the subformulas
  have up : ∀ f : Form, (∀ p l r, f ≠ .lit p l r) → (∀ b v, I.Sorted v →
      (Marked M true f → (copyNode s.list b f).Holds I v → f.Holds I v) ∧ (Marked M false f → f.Holds I v → (copyNode s.list b f).Holds I v)) →
      ∀ b v, I.Sorted v →
      (Marked M true f → (f.copyDef s.list b).Holds I v → f.Holds I v) ∧ (Marked M false f → f.Holds I v → (f.copyDef s.list b).Holds I v) := by
    intro f hl h b v hv
    rcases copyDef_cases s.list b f with ⟨e, he, hc⟩ | hc
    · obtain ⟨h1, h2, -⟩ := usable_some he
      subst h2
      have h4 := copyDef_none (usable_self hi h1)
      have h5 := hd e h1 v hv
      rw [h4] at h5
      rw [hc]
      have hm : ∀ sgn, Marked M sgn e.form → (e.form, sgn) ∈ M := by
        intro sgn hm
        cases hf : e.form with
        | lit p l r => exact absurd hf (hl p l r)
        | _ => rw [hf] at hm; exact hm
      exact ⟨fun m h' => (h _ v hv).1 m ((h5.1 (hm _ m)) h'), fun m h' => h5.2 (hm _ m) ((h _ v hv).2 m h')⟩
    · rw [hc]; exact h b v hv
  induction f with
  | lit p l r => exact fun _ b v _ => ⟨fun _ h => h, fun _ h => h⟩
  | atom t => exact fun _ b v _ => ⟨fun _ h => h, fun _ h => h⟩
  | not f ih =>
    intro hb
    refine up _ (by simp) fun b v hv => ?_
    exact ⟨fun m h hf => h ((ih hb b v hv).2 (hM.not _ _ m) hf), fun m h hf => h ((ih hb b v hv).1 (hM.not _ _ m) hf)⟩
  | qu q x f ih =>
    intro hb
    refine up _ (by simp) fun b v hv => ?_
    cases q with
    | true =>
      exact ⟨fun m h d hd => (ih hb b _ (sorted_updv hv hd)).1 (hM.qu _ _ _ _ m) (h d hd),
        fun m h d hd => (ih hb b _ (sorted_updv hv hd)).2 (hM.qu _ _ _ _ m) (h d hd)⟩
    | false =>
      exact ⟨fun m ⟨d, hd, h⟩ => ⟨d, hd, (ih hb b _ (sorted_updv hv hd)).1 (hM.qu _ _ _ _ m) h⟩,
        fun m ⟨d, hd, h⟩ => ⟨d, hd, (ih hb b _ (sorted_updv hv hd)).2 (hM.qu _ _ _ _ m) h⟩⟩
  | bin op f g ih1 ih2 =>
    intro hb
    refine up _ (by simp) fun b v hv => ?_
    have i1 := ih1 hb.2.1 b v hv
    have i2 := ih2 hb.2.2 b v hv
    rcases hb.1 with rfl | rfl | rfl | rfl
    · refine ⟨fun m h => ?_, fun m h => ?_⟩
      · have := hM.and _ _ _ m
        exact ⟨i1.1 this.1 h.1, i2.1 this.2 h.2⟩
      · have := hM.and _ _ _ m
        exact ⟨i1.2 this.1 h.1, i2.2 this.2 h.2⟩
    · refine ⟨fun m h => ?_, fun m h => ?_⟩
      · have := hM.or _ _ _ m
        exact h.imp (i1.1 this.1) (i2.1 this.2)
      · have := hM.or _ _ _ m
        exact h.imp (i1.2 this.1) (i2.2 this.2)
    · refine ⟨fun m h => ?_, fun m h => ?_⟩
      · have := hM.impl _ _ _ m
        exact fun hf => i2.1 this.2 (h (i1.2 this.1 hf))
      · have := hM.impl _ _ _ m
        exact fun hf => i2.2 this.2 (h (i1.1 this.1 hf))
    · have key : (∀ t, Marked M t f ∧ Marked M t g) → ((copyNode s.list b (.bin .equiv f g)).Holds I v ↔ (Form.bin .equiv f g).Holds I v) := by
        intro hm
        exact iff_congr ⟨i1.1 (hm _).1, i1.2 (hm _).1⟩ ⟨i2.1 (hm _).2, i2.2 (hm _).2⟩
      exact ⟨fun m h => (key (hM.equiv _ _ _ m)).1 h, fun m h => (key (hM.equiv _ _ _ m)).2 h⟩

/-! ## The definitions in the output -/

theorem addQuantors_foldr (xs : List Nat) (f : Form) : addQuantors true xs f = xs.reverse.foldr (Form.qu true) f := by
  unfold addQuantors
  rw [List.foldl_eq_foldr_reverse]

theorem valid_addQuantors (I : Interp.{u} sg) (xs : List Nat) (f : Form) : (addQuantors true xs f).Valid I ↔ f.Valid I := by
  rw [addQuantors_foldr]; exact valid_prefix I f _

theorem parts_addQuantors {Pl : Term → Term → Prop} {Pa : Term → Prop} {Px : Nat → Prop} {f : Form} {xs : List Nat} (h : f.Parts Pl Pa Px) (hx : ∀ x ∈ xs, Px x) :
    (addQuantors true xs f).Parts Pl Pa Px := by
  rw [addQuantors_foldr]; exact parts_prefix h fun x hx' => hx x (List.mem_reverse.1 hx')

/-- The matrix of a definition. -/
def defMatrix (e : DefEntry) (pol : Int) (f : Form) : Form :=
  if pol = -1 then .bin .impl f e.atom else if pol = 0 then .bin .equiv e.atom f else .bin .impl e.atom f

theorem copyDef_addQuantors {list : List DefEntry} {b : Option Nat} {n : Nat} (hl : ∀ e ∈ list, e.form.SymsBelow n) (xs : List Nat) : ∀ {f : Form}, ¬ f.SymsBelow n →
    (addQuantors true xs f).copyDef list b = addQuantors true xs (f.copyDef list b) := by
  induction xs with
  | nil => exact fun _ => rfl
  | cons x xs ih =>
    intro f hf
    have h1 : ¬ (Form.qu true x f).SymsBelow n := fun h => hf h.2
    refine (ih h1).trans ?_
    have : usable list b (.qu true x f) = none := by
      cases hu : usable list b (.qu true x f) with
      | none => rfl
      | some e =>
        obtain ⟨h2, h3, -⟩ := usable_some hu
        exact absurd (h3 ▸ hl e h2) h1
    rw [copyDef_none this]
    rfl

theorem atom_syms {e : DefEntry} {n : Nat} (h : n ≤ e.code) : ¬ e.atom.SymsBelow n := by
  intro hs
  have := hs.1
  rw [Term.symsBelow_app] at this
  exact Nat.not_lt.2 h this.1

theorem copyDef_createDef {n : Nat} {Q : Form → Prop} {s : Defs} (hi : DefsInv n Q s) (hQ : ∀ f, Q f → f.SymsBelow n) {e : DefEntry} (he : e ∈ s.list) (pol : Int) :
    (createDef e pol).copyDef s.list (some e.code) = addQuantors true e.vars (defMatrix e pol (e.form.copyDef s.list (some e.code))) := by
  have hl : ∀ e ∈ s.list, e.form.SymsBelow n := fun e he => hQ _ (hi.q e he)
  have ha := atom_syms (e := e) (hi.codeIn he).1
  have hn : ∀ op, ∀ f g : Form, f = e.atom ∨ g = e.atom → ¬ (Form.bin op f g).SymsBelow n := by
    rintro op f g (rfl | rfl) h
    exacts [ha h.1, ha h.2]
  have hu : ∀ op, ∀ f g : Form, f = e.atom ∨ g = e.atom → (Form.bin op f g).copyDef s.list (some e.code) = .bin op (f.copyDef s.list (some e.code)) (g.copyDef s.list (some e.code)) := by
    intro op f g h
    refine copyDef_none ?_
    cases hu : usable s.list (some e.code) (.bin op f g) with
    | none => rfl
    | some e' =>
      obtain ⟨h2, h3, -⟩ := usable_some hu
      exact absurd (h3 ▸ hl e' h2) (hn op f g h)
  unfold createDef
  rw [copyDef_addQuantors hl]
  · unfold defMatrix
    split
    · rw [hu _ _ _ (.inr rfl)]; rfl
    · split
      · rw [hu _ _ _ (.inl rfl)]; rfl
      · rw [hu _ _ _ (.inl rfl)]; rfl
  · split
    · exact hn _ _ _ (.inr rfl)
    · split
      · exact hn _ _ _ (.inl rfl)
      · exact hn _ _ _ (.inl rfl)

theorem defMatrix_holds (I : Interp.{u} sg) (e : DefEntry) (M : List (Form × Bool)) (f : Form) (v : Nat → I.D) (h : (defMatrix e (decodePolarity M e.form) f).Holds I v) :
    ((e.form, true) ∈ M → e.atom.Holds I v → f.Holds I v) ∧ ((e.form, false) ∈ M → f.Holds I v → e.atom.Holds I v) := by
  by_cases h1 : (e.form, true) ∈ M <;> by_cases h2 : (e.form, false) ∈ M <;>
    simp [decodePolarity, h1, h2, defMatrix, Holds, BOp.Holds] at h ⊢
  · exact ⟨h.1, h.2⟩
  · exact h
  · exact h

/-- Every model of the formulas with the definitions is a model of the original formulas. -/
theorem introduceDefs_sound {limit : Int} {ws : List WForm} {n : Nat} (hb : ∀ w ∈ ws, w.form.Basic) (hsy : ∀ w ∈ ws, w.form.SymsBelow n) (I : Interp.{u} sg)
    (h : ∀ w ∈ (introduceDefs sg limit ws n).1, w.form.Valid I) : ∀ w ∈ ws, w.form.Valid I := by
  have hq : SubClosed (Form.SymsBelow n) := ⟨fun _ h => h, fun _ _ _ h => h.1, fun _ _ _ h => h.2, fun _ _ _ h => h.2⟩
  have hi := formulasFindDefs_inv (n := n) hq limit ws hsy
  simp only [introduceDefs, List.mem_append, List.mem_map] at h
  generalize formulasFindDefs limit ws n = s at *
  have hM := formulasMark_closed ws
  have hd : DefsHold I (formulasMark ws) s.list := by
    intro e he v hv
    have h1 := h _ (.inr ⟨e, he, rfl⟩)
    simp only at h1
    rw [copyDef_createDef hi (fun _ h => h) he, valid_addQuantors] at h1
    exact defMatrix_holds I e _ _ v (h1 v hv)
  intro w hw v hv
  exact (copyDef_sound hM hi hd w.form (hb w hw) none v hv).1 (formulasMark_root hw) (h _ (.inl ⟨w, hw, rfl⟩) v hv)

/-! ## Every model can be extended -/

/-- Replacement by equivalent atoms. -/
theorem copyDef_equiv {I : Interp.{u} sg} {list : List DefEntry} (h : ∀ e ∈ list, ∀ v, e.atom.Holds I v ↔ e.form.Holds I v) (b : Option Nat) (f : Form) :
    ∀ v, (f.copyDef list b).Holds I v ↔ f.Holds I v := by
  have up : ∀ f : Form, (∀ v, (copyNode list b f).Holds I v ↔ f.Holds I v) → ∀ v, (f.copyDef list b).Holds I v ↔ f.Holds I v := by
    intro f hf v
    rcases copyDef_cases list b f with ⟨e, he, hc⟩ | hc
    · obtain ⟨h1, h2, -⟩ := usable_some he
      rw [hc, h e h1 v, h2]
    · rw [hc]; exact hf v
  induction f with
  | lit => exact fun v => Iff.rfl
  | atom => exact fun v => Iff.rfl
  | not f ih => exact up _ fun v => not_congr (ih v)
  | bin op f g ih1 ih2 => exact up _ fun v => bin_congr (ih1 v) (ih2 v)
  | qu q x f ih => exact up _ fun v => qu_congr I ih q x v

/-- The valuation that gives the variables `xs` the values `ds`. -/
def bindVals {D : Type u} (v0 : Nat → D) (xs : List Nat) (ds : List D) (x : Nat) : D := ((xs.zip ds).lookup x).getD (v0 x)

theorem bindVals_map {D : Type u} (v0 v : Nat → D) (xs : List Nat) {x : Nat} (hx : x ∈ xs) : bindVals v0 xs (xs.map v) x = v x := by
  unfold bindVals
  induction xs with
  | nil => cases hx
  | cons y ys ih =>
    simp only [List.map_cons, List.zip_cons_cons, List.lookup_cons]
    by_cases h : x = y
    · subst h; simp
    · simp only [beq_eq_false_iff_ne.2 h]
      rcases List.mem_cons.1 hx with rfl | hx
      · exact (h rfl).elim
      · exact ih hx

open Classical in
/-- The functions with the new predicates defined. -/
noncomputable def defFn (I : Interp.{u} sg) (list : List DefEntry) (v0 : Nat → I.D) (c : Nat) : List I.D → I.D :=
  match list.find? fun e => e.code == c with
  | some e => fun ds => if e.form.Holds I (bindVals v0 e.vars ds) then I.fn 1 [] else I.fn 2 []
  | none => I.fn c

theorem evalL_vars (I : Interp.{u} sg) (v : Nat → I.D) (xs : List Nat) : I.evalL v (xs.map Term.var) = xs.map v := by
  induction xs with
  | nil => rfl
  | cons x xs ih => simp only [List.map_cons, Interp.evalL, Interp.eval, ih]

theorem introduceDefs_extend (hs : SigOK sg) {limit : Int} {ws : List WForm} {n : Nat} (h2 : 2 < n) (hsy : ∀ w ∈ ws, w.form.SymsBelow n)
    (hdc : Declared sg (introduceDefs sg limit ws n).2.2) (I : Interp.{u} sg) (h : ∀ w ∈ ws, w.form.Valid I) :
    ∃ F, ∃ hF : I.FnOK F, (∀ c, ¬ CodesIn n (introduceDefs sg limit ws n).2.1 c → F c = I.fn c) ∧
      ∀ w ∈ (introduceDefs sg limit ws n).1, w.form.Valid (I.reint F hF) := by
  have hq : SubClosed (Form.SymsBelow n) := ⟨fun _ h => h, fun _ _ _ h => h.1, fun _ _ _ h => h.2, fun _ _ _ h => h.2⟩
  have hi := formulasFindDefs_inv (n := n) hq limit ws hsy
  simp only [introduceDefs] at hdc ⊢
  generalize formulasFindDefs limit ws n = s at *
  obtain ⟨v0, -⟩ : ∃ v0 : Nat → I.D, I.Sorted v0 := ⟨fun x => (I.inhab (sg.vty x)).choose, fun x => (I.inhab (sg.vty x)).choose_spec⟩
  have hfind : ∀ c, ¬ CodesIn n s.next c → defFn I s.list v0 c = I.fn c := by
    intro c hc
    unfold defFn
    split
    · rename_i e he
      have h1 := List.mem_of_find?_eq_some he
      have h3 : e.code = c := by simpa using List.find?_some he
      exact (hc (h3 ▸ hi.codeIn h1)).elim
    · rfl
  have hlow : ∀ c, c < n → defFn I s.list v0 c = I.fn c := fun c hc => hfind c fun h => Nat.not_lt.2 h.1 hc
  have hval : ∀ e ∈ s.list, ∀ ds, (e.form.Holds I (bindVals v0 e.vars ds) → defFn I s.list v0 e.code ds = I.fn 1 []) ∧
      (¬ e.form.Holds I (bindVals v0 e.vars ds) → defFn I s.list v0 e.code ds = I.fn 2 []) := by
    intro e he ds
    have : s.list.find? (fun e' => e'.code == e.code) = some e := by
      cases hf : s.list.find? (fun e' => e'.code == e.code) with
      | none => exact absurd (List.find?_eq_none.1 hf e he) (by simp)
      | some e' =>
        have h3 : e'.code = e.code := by simpa using List.find?_some hf
        rw [hi.codeInj (List.mem_of_find?_eq_some hf) he h3]
    unfold defFn
    rw [this]
    exact ⟨fun h => if_pos h, fun h => if_neg h⟩
  have hFn : I.FnOK (defFn I s.list v0) := by
    refine ⟨?_, ?_, ?_, ?_⟩
    · intro c ds hds
      by_cases hc : ∃ e ∈ s.list, e.code = c
      · obtain ⟨e, he, rfl⟩ := hc
        have hty : sg.fty e.code = sg.fty 1 := (hdc _ (List.mem_map.2 ⟨e, he, rfl⟩)).2.1
        rw [hty]
        have m1 := I.fn_mem 1 [] (by rw [hs.targs]; exact .nil)
        have m2 := I.fn_mem 2 [] (by rw [hs.fargs]; exact .nil)
        by_cases hh : e.form.Holds I (bindVals v0 e.vars ds)
        · rw [(hval e he ds).1 hh]; exact m1
        · rw [(hval e he ds).2 hh, hs.tf]; exact m2
      · have : defFn I s.list v0 c = I.fn c := by
          unfold defFn
          split
          · rename_i e he
            exact (hc ⟨e, List.mem_of_find?_eq_some he, by simpa using List.find?_some he⟩).elim
          · rfl
        rw [this]; exact I.fn_mem c ds hds
    · rw [hlow 1 (by omega), hlow 2 (by omega)]; exact I.tf
    · rw [hlow 1 (by omega), hlow 2 (by omega)]; exact I.bool2
    · intro f g hf hg hne
      have : ∀ c, sg.distinct c → defFn I s.list v0 c = I.fn c := by
        intro c hc
        unfold defFn
        split
        · rename_i e he
          have h3 : e.code = c := by simpa using List.find?_some he
          subst h3
          exact ((hdc _ (List.mem_map.2 ⟨e, List.mem_of_find?_eq_some he, rfl⟩)).2.2 hc).elim
        · rfl
      rw [this f hf, this g hg]; exact I.dist f g hf hg hne
  refine ⟨_, hFn, hfind, ?_⟩
  have hat : ∀ e ∈ s.list, ∀ v : Nat → I.D, e.atom.Holds (I.reint _ hFn) v ↔ e.form.Holds (I.reint _ hFn) v := by
    intro e he v
    rw [holds_reint I hFn (by omega) hlow e.form v (hi.q e he)]
    have hagree : e.form.Holds I (bindVals v0 e.vars (e.vars.map v)) ↔ e.form.Holds I v := by
      refine holds_congr I fun x hx => bindVals_map v0 v e.vars ?_
      rw [hi.vars e he]; exact mem_freeVars.2 hx
    have he1 : (I.reint _ hFn).eval v (.app e.code (e.vars.map .var)) = defFn I s.list v0 e.code (e.vars.map v) :=
      congrArg (defFn I s.list v0 e.code) (evalL_vars (I.reint _ hFn) v e.vars)
    have he2 : (I.reint _ hFn).eval v tTrue = I.fn 1 [] := by
      show defFn I s.list v0 1 [] = _
      rw [hlow 1 (by omega)]
    show ((I.reint _ hFn).eval v (.app e.code (e.vars.map .var)) = (I.reint _ hFn).eval v tTrue) ↔ _
    rw [he1, he2]
    by_cases hh : e.form.Holds I v
    · rw [(hval e he _).1 (hagree.2 hh)]; exact ⟨fun _ => hh, fun _ => rfl⟩
    · rw [(hval e he _).2 (fun h => hh (hagree.1 h))]
      exact ⟨fun h => (I.tf h.symm).elim, fun h => (hh h).elim⟩
  intro w hw
  rcases List.mem_append.1 hw with hw | hw
  · obtain ⟨w', hw', rfl⟩ := List.mem_map.1 hw
    refine (valid_congr (copyDef_equiv hat none w'.form)).2 ?_
    exact (valid_reint I hFn (by omega) hlow (hsy w' hw')).2 (h w' hw')
  · obtain ⟨e, he, rfl⟩ := List.mem_map.1 hw
    refine (valid_congr (copyDef_equiv hat _ _)).2 ?_
    unfold createDef
    rw [valid_addQuantors]
    intro v hv
    have := hat e he v
    split
    · exact fun h => this.2 h
    · split
      · exact this
      · exact fun h => this.1 h

/-! ## Well-formed output -/

theorem parts_copyDef {Pl : Term → Term → Prop} {Pa : Term → Prop} {Px : Nat → Prop} {list : List DefEntry} (h : ∀ e ∈ list, e.atom.Parts Pl Pa Px) (b : Option Nat) {f : Form}
    (hf : f.Parts Pl Pa Px) : (f.copyDef list b).Parts Pl Pa Px := by
  have up : ∀ f : Form, (copyNode list b f).Parts Pl Pa Px → (f.copyDef list b).Parts Pl Pa Px := by
    intro f hf
    rcases copyDef_cases list b f with ⟨e, he, hc⟩ | hc
    · rw [hc]; exact h e (usable_some he).1
    · rw [hc]; exact hf
  induction f with
  | lit => exact hf
  | atom => exact hf
  | not f ih => exact up _ (ih hf)
  | bin op f g ih1 ih2 => exact up _ ⟨ih1 hf.1, ih2 hf.2⟩
  | qu q x f ih => exact up _ ⟨hf.1, ih hf.2⟩

theorem disj_copyDef {list : List DefEntry} (b : Option Nat) {f : Form} (hf : f.IsDisj) : (f.copyDef list b).IsDisj := by
  have up : ∀ f : Form, (copyNode list b f).IsDisj → (f.copyDef list b).IsDisj := by
    intro f hf
    rcases copyDef_cases list b f with ⟨e, he, hc⟩ | hc
    · rw [hc]; trivial
    · rw [hc]; exact hf
  induction f with
  | lit => trivial
  | atom => exact hf.elim
  | not f ih => exact hf.elim
  | bin op f g ih1 ih2 => exact up _ ⟨hf.1, ih1 hf.2.1, ih2 hf.2.2⟩
  | qu q x f ih => exact hf.elim

theorem basic_copyDef {list : List DefEntry} (b : Option Nat) {f : Form} (hf : f.Basic) : (f.copyDef list b).Basic := by
  have up : ∀ f : Form, (copyNode list b f).Basic → (f.copyDef list b).Basic := by
    intro f hf
    rcases copyDef_cases list b f with ⟨e, he, hc⟩ | hc
    · rw [hc]; trivial
    · rw [hc]; exact hf
  induction f with
  | lit => trivial
  | atom => trivial
  | not f ih => exact up _ (ih hf)
  | bin op f g ih1 ih2 => exact up _ ⟨hf.1, ih1 hf.2.1, ih2 hf.2.2⟩
  | qu q x f ih => exact up _ (ih hf)

theorem parts_createDef {Pl : Term → Term → Prop} {Pa : Term → Prop} {Px : Nat → Prop} {e : DefEntry} (h1 : e.atom.Parts Pl Pa Px) (h2 : e.form.Parts Pl Pa Px) (h3 : ∀ x ∈ e.vars, Px x)
    (pol : Int) : (createDef e pol).Parts Pl Pa Px := by
  refine parts_addQuantors ?_ h3
  split
  · exact ⟨h2, h1⟩
  · split
    · exact ⟨h1, h2⟩
    · exact ⟨h1, h2⟩

theorem parts_sub {Pl : Term → Term → Prop} {Pa : Term → Prop} {Px : Nat → Prop} : SubClosed (Form.Parts Pl Pa Px) :=
  ⟨fun _ h => h, fun _ _ _ h => h.1, fun _ _ _ h => h.2, fun _ _ _ h => h.2⟩

/-- The output satisfies the conditions on the input of clausification. -/
theorem introduceDefs_ok (hs : SigOK sg) {limit : Int} {ws : List WForm} {m n : Nat} (h2 : 2 < n) (hok : ∀ w ∈ ws, WForm.OK sg m n w)
    (hdc : Declared sg (introduceDefs sg limit ws n).2.2) :
    n ≤ (introduceDefs sg limit ws n).2.1 ∧ ∀ w ∈ (introduceDefs sg limit ws n).1, WForm.OK sg m (introduceDefs sg limit ws n).2.1 w := by
  have hq : SubClosed (fun f => f.SymsBelow n ∧ f.WT sg ∧ f.AllVars (· ≤ m)) :=
    ⟨fun f h => ⟨parts_sub.not f h.1, parts_sub.not f h.2.1, parts_sub.not f h.2.2⟩, fun op f g h => ⟨parts_sub.left op f g h.1, parts_sub.left op f g h.2.1, parts_sub.left op f g h.2.2⟩,
      fun op f g h => ⟨parts_sub.right op f g h.1, parts_sub.right op f g h.2.1, parts_sub.right op f g h.2.2⟩, fun q x f h => ⟨parts_sub.qu q x f h.1, parts_sub.qu q x f h.2.1, parts_sub.qu q x f h.2.2⟩⟩
  have hi := formulasFindDefs_inv (n := n) hq limit ws fun w hw => ⟨(hok w hw).syms, (hok w hw).wt, (hok w hw).vars⟩
  simp only [introduceDefs] at hdc ⊢
  generalize formulasFindDefs limit ws n = s at *
  have hn : n ≤ s.next := by rw [hi.next]; omega
  have hvars : ∀ e ∈ s.list, ∀ x ∈ e.vars, x ≤ m := fun e he x hx => by
    rw [hi.vars e he] at hx
    exact fv_allVars (hi.q e he).2.2 x (mem_freeVars.1 hx)
  have ha1 : ∀ e ∈ s.list, e.atom.SymsBelow s.next := fun e he =>
    ⟨symsBelow_mono (hi.codeIn he).2 _ syms_sk, (by rw [tTrue, Term.symsBelow_app]; exact ⟨by omega, by simp⟩)⟩
  have ha2 : ∀ e ∈ s.list, e.atom.WT sg := fun e he => by
    have hd := hdc _ (List.mem_map.2 ⟨e, he, rfl⟩)
    refine ⟨Sig.wt_app.2 ⟨?_, ?_⟩, wt_true hs, hd.2.1⟩
    · rw [List.map_map]; exact hd.1.symm
    · intro t ht
      obtain ⟨x, -, rfl⟩ := List.mem_map.1 ht
      trivial
  have ha3 : ∀ e ∈ s.list, e.atom.AllVars (· ≤ m) := fun e he =>
    ⟨fun x hx => hvars e he x ((vars_sk _ _ _).1 hx), by simp [tTrue, Term.vars, Term.varsL]⟩
  refine ⟨hn, fun w hw => ?_⟩
  rcases List.mem_append.1 hw with hw | hw
  · obtain ⟨w', hw', rfl⟩ := List.mem_map.1 hw
    have o := hok w' hw'
    exact ⟨parts_copyDef ha2 none o.wt, parts_copyDef ha3 none o.vars, parts_copyDef ha1 none (form_symsBelow_mono hn o.syms), fun hc => disj_copyDef none (o.clause hc)⟩
  · obtain ⟨e, he, rfl⟩ := List.mem_map.1 hw
    have o := hi.q e he
    exact ⟨parts_copyDef ha2 _ (parts_createDef (ha2 e he) o.2.1 (fun _ _ => trivial) _), parts_copyDef ha3 _ (parts_createDef (ha3 e he) o.2.2 (hvars e he) _),
      parts_copyDef ha1 _ (parts_createDef (ha1 e he) (form_symsBelow_mono hn o.1) (fun _ _ => trivial) _), by simp⟩

end Verif.CNFProof
