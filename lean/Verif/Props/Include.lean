import Verif.Inout.IncludeProof

/-!
# C86: reading problems with `include`

`Text`: the statements with every `include` replaced; `Locates`: the file meant by a name; `Clean`: no file read contains anything but statements;
`Named`: no formula has the name that E uses for empty selections and that no token has.
-/

namespace Verif.Props
open Verif Verif.Incl

variable {fs : FS} {tptp : Option Str} {skip : List Str} {dir : Str} {ss : List Stmt}

/-- **C86.** The directory of the TPTP library ends in a slash. -/
theorem include_library_dir (env : Option Str) (T : Str) (h : tptpDir env = some T) : IsDir T := by
  unfold tptpDir at h
  obtain ⟨s, -, h⟩ := Option.map_eq_some_iff.1 h
  by_cases hs : s ≠ [] ∧ s.getLast? ≠ some '/'
  · rw [if_pos hs] at h
    rw [← h]
    right
    simp
  · rw [if_neg hs] at h
    subst h
    by_cases h0 : s = []
    · exact .inl h0
    · right
      by_contra hc
      exact hs ⟨h0, hc⟩

/-- **C86.** The file opened is the one meant by the name; names in it are relative to its directory. -/
theorem include_open {f d : Str} {c : List Stmt} (hd : IsDir dir) (ht : ∀ T, tptp = some T → IsDir T) :
    openFile fs tptp dir f = some (d, c) ↔ ∃ p, Locates fs tptp dir f p ∧ fs p = some c ∧ DirOf p d :=
  openFile_iff hd ht

/-- **C86.** It is an error if and only if this file does not exist. -/
theorem include_missing {f : Str} (hd : IsDir dir) (ht : ∀ T, tptp = some T → IsDir T) :
    openFile fs tptp dir f = none ↔ ∀ p, Locates fs tptp dir f p → fs p = none :=
  openFile_none hd ht

/-- **C86.** What is read, in order, is the text with all files included and the named formulas selected. -/
theorem include_exact (hN : Named fs) (ht : ∀ T, tptp = some T → IsDir T) (hd : IsDir dir) (hc : Clean fs tptp skip dir ss) {o : Out} :
    (∃ n, readFile fs tptp skip n dir ss = .ok (o, [])) ↔ ∃ L k, Text fs tptp skip dir ss L k ∧ o = outOf L k := by
  constructor
  · rintro ⟨n, h⟩
    exact (read_text hN ht n hd hc (fun s h => h) h).2
  · rintro ⟨L, k, h, rfl⟩
    exact text_read hN ht h hd

/-- **C86.** The formulas read are exactly those contributed by the files, and those for the watch list go there. -/
theorem include_members (hN : Named fs) (ht : ∀ T, tptp = some T → IsDir T) (hd : IsDir dir) (hc : Clean fs tptp skip dir ss) {n : Nat} {o : Out}
    {q : List Stmt} (h : readFile fs tptp skip n dir ss = .ok (o, q)) (e : Entry) :
    (e ∈ o.forms ↔ Contrib fs tptp skip dir ss e false) ∧ (e ∈ o.watch ↔ Contrib fs tptp skip dir ss e true) := by
  obtain ⟨-, L, k, hT, rfl⟩ := read_text hN ht n hd hc (fun s h => h) h
  rw [← text_contrib hT, ← text_contrib hT]
  constructor
  · simp only [outOf, List.mem_map, List.mem_filter, Bool.not_eq_true', Prod.exists, exists_and_right, exists_eq_right]
  · simp only [outOf, List.mem_map, List.mem_filter, Prod.exists, exists_and_right, exists_eq_right]

/-- **C86.** Reading ends if no file includes itself, directly or not. -/
theorem include_terminates (ht : ∀ T, tptp = some T → IsDir T) {rank : Str → Nat}
    (hr : ∀ p c d f sel p', fs p = some c → DirOf p d → Stmt.incl f sel ∈ c → Locates fs tptp d f p' → rank p' < rank p)
    {p d : Str} (hp : fs p = some ss) (hd : DirOf p d) {n : Nat} (hn : rank p < n) : readFile fs tptp skip n d ss ≠ .error .fuel :=
  read_terminates ht hr n hp hd hn

/-- **C86.** In that case an error is reported if and only if there is no such text: a file does not exist, or a name is not found in a file. -/
theorem include_fails (hN : Named fs) (ht : ∀ T, tptp = some T → IsDir T) {rank : Str → Nat}
    (hr : ∀ p c d f sel p', fs p = some c → DirOf p d → Stmt.incl f sel ∈ c → Locates fs tptp d f p' → rank p' < rank p)
    {p d : Str} (hp : fs p = some ss) (hd : DirOf p d) (hc : Clean fs tptp skip d ss) {n : Nat} (hn : rank p < n) :
    (∃ e, readFile fs tptp skip n d ss = .error e) ↔ ¬ ∃ L k, Text fs tptp skip d ss L k := by
  have hf := read_terminates (skip := skip) ht hr n hp hd hn
  constructor
  · rintro ⟨e, he⟩ ⟨L, k, hT⟩
    obtain ⟨m, hm⟩ := text_read hN ht hT (dirOf_isDir hd)
    rcases Nat.le_total n m with h | h
    · rw [readFile_more' h hf, he] at hm; cases hm
    · rw [readFile_mono' h hm] at he; cases he
  · intro h
    cases hx : readFile fs tptp skip n d ss with
    | error e => exact ⟨e, rfl⟩
    | ok r =>
      obtain ⟨-, L, k, hT, -⟩ := read_text hN ht n (dirOf_isDir hd) hc (fun s h => h) (o := r.1) (q := r.2) hx
      exact absurd ⟨L, k, hT⟩ h

/-- **C86.** Anything but statements in a file of the command line is an error. -/
theorem problem_syntax {n : Nat} {f d : Str} {fl : List Str} {c : List Stmt} (ho : openFile fs tptp [] f = some (d, c)) (hj : Stmt.junk ∈ c)
    (o : Out) : readSpec fs tptp n (f :: fl) ≠ .ok o := by
  intro h
  rw [readSpec, ho] at h
  simp only at h
  cases hr : readFile fs tptp [] n d c with
  | error e => rw [hr] at h; cases h
  | ok r =>
    obtain ⟨o', q⟩ := r
    rw [hr] at h
    have hq : q ≠ [] := by
      rw [readFile_eq] at hr
      exact readWith_junk hr hj
    simp only at h
    rw [if_pos hq] at h
    cases h

private theorem readSpec_mono {n m : Nat} (hm : n ≤ m) : ∀ {fl : List Str} {o : Out}, readSpec fs tptp n fl = .ok o → readSpec fs tptp m fl = .ok o
  | [], _, h => h
  | f :: fl, o, h => by
    rw [readSpec] at h ⊢
    cases ho : openFile fs tptp [] f with
    | none => rw [ho] at h; cases h
    | some r =>
      obtain ⟨d, c⟩ := r
      rw [ho] at h
      simp only at h ⊢
      cases hr : readFile fs tptp [] n d c with
      | error e => rw [hr] at h; cases h
      | ok r1 =>
        rw [readFile_mono' hm hr]
        rw [hr] at h
        simp only at h ⊢
        by_cases hq : r1.2 ≠ []
        · rw [if_pos hq] at h; cases h
        · rw [if_neg hq] at h ⊢
          cases hs : readSpec fs tptp n fl with
          | error e => rw [hs] at h; cases h
          | ok o' => rw [readSpec_mono hm hs]; rw [hs] at h; exact h

/-- **C86.** The problem read from the files of the command line is their text, in order. -/
theorem problem_exact (hN : Named fs) (ht : ∀ T, tptp = some T → IsDir T) : ∀ {files : List Str},
    (∀ f ∈ files, ∀ p c d, Locates fs tptp [] f p → fs p = some c → DirOf p d → Clean fs tptp [] d c) → ∀ {o : Out},
    ((∃ n, readSpec fs tptp n files = .ok o) ↔ ∃ L k, SpecText fs tptp files L k ∧ o = outOf L k)
  | [], _, o => by
    constructor
    · rintro ⟨n, h⟩
      rw [readSpec] at h
      injection h with h
      exact ⟨[], 0, .nil, h.symm⟩
    · rintro ⟨L, k, h, rfl⟩
      cases h
      exact ⟨0, rfl⟩
  | f :: fl, hc, o => by
    have ih := fun {o} => problem_exact hN ht (files := fl) (fun f hf => hc f (List.mem_cons_of_mem _ hf)) (o := o)
    constructor
    · rintro ⟨n, h⟩
      rw [readSpec] at h
      cases ho : openFile fs tptp [] f with
      | none => rw [ho] at h; cases h
      | some r =>
        obtain ⟨d, c⟩ := r
        obtain ⟨p, hl, hp, hd⟩ := (openFile_iff (.inl rfl) ht).1 ho
        rw [ho] at h
        simp only at h
        cases hr : readFile fs tptp [] n d c with
        | error e => rw [hr] at h; cases h
        | ok r1 =>
          obtain ⟨o1, q1⟩ := r1
          obtain ⟨rfl, L1, k1, hT, rfl⟩ := read_text hN ht n (dirOf_isDir hd) (hc f (List.mem_cons_self ..) p c d hl hp hd) (fun s h => h) hr
          rw [hr] at h
          simp only at h
          rw [if_neg (by simp)] at h
          cases hs : readSpec fs tptp n fl with
          | error e => rw [hs] at h; cases h
          | ok o' =>
            rw [hs] at h
            injection h with h
            subst h
            obtain ⟨L, k, hS, rfl⟩ := ih.1 ⟨n, hs⟩
            exact ⟨L1 ++ L, k1 + k, .cons hl hp hd hT hS, by rw [outOf_append]; rfl⟩
    · rintro ⟨L0, k0, h, rfl⟩
      cases h with
      | @cons _ _ p c d L1 k1 L k hl hp hd hT hS =>
        obtain ⟨n1, h1⟩ := text_read hN ht hT (dirOf_isDir hd)
        obtain ⟨n2, h2⟩ := ih.2 ⟨L, k, hS, rfl⟩
        refine ⟨max n1 n2, ?_⟩
        rw [readSpec, (openFile_iff (.inl rfl) ht).2 ⟨p, hl, hp, hd⟩]
        simp only
        rw [readFile_mono' (Nat.le_max_left n1 n2) h1]
        simp only
        rw [if_neg (by simp), readSpec_mono (Nat.le_max_right n1 n2) h2]
        simp only
        rw [outOf_append]
        rfl

/-! ## Examples and disagreements -/

namespace IncludeEx

def a1 : Str := ['a']
def a2 : Str := ['b']
def g1 : Str := ['g']

def lib : Str := "/T/".toList
def main : Str := "p/main".toList
def ax : Str := "Ax/x".toList
def ax2 : Str := "Ax/y".toList

/-- `p/main` includes formula `a` of `Ax/x`, which is in the library and includes `y` from its own directory. -/
def files : FS := fun p =>
  if p = main then some [.incl ax (some [a1]), .form g1 false 3]
  else if p = lib ++ ax then some [.form a1 false 1, .incl ['y'] none, .form a2 false 2]
  else if p = lib ++ ax2 then some [.form a1 true 4]
  else none

example : readSpec files (some lib) 2 [main] = .ok ⟨[⟨a1, 1⟩, ⟨g1, 3⟩], [⟨a1, 4⟩], 4⟩ := by decide +kernel

theorem files_named : Named files := by
  intro p c x w b hp hm
  unfold files at hp
  split at hp
  · obtain rfl := Option.some.inj hp
    simp at hm
    rw [hm.1]; decide
  · split at hp
    · obtain rfl := Option.some.inj hp
      simp at hm
      rcases hm with hm | hm <;> (rw [hm.1]; decide)
    · split at hp
      · obtain rfl := Option.some.inj hp
        simp at hm
        rw [hm.1]; decide
      · cases hp

/-- No file contains anything else, so all hypotheses are met. -/
theorem files_clean (p : Str) (c : List Stmt) (hp : files p = some c) : Stmt.junk ∉ c := by
  unfold files at hp
  split at hp
  · obtain rfl := Option.some.inj hp; simp
  · split at hp
    · obtain rfl := Option.some.inj hp; simp
    · split at hp
      · obtain rfl := Option.some.inj hp; simp
      · cases hp

example : ∃ L k, SpecText files (some lib) [main] L k ∧ (⟨[⟨a1, 1⟩, ⟨g1, 3⟩], [⟨a1, 4⟩], 4⟩ : Out) = outOf L k := by
  refine (problem_exact files_named (fun T h => ?_) ?_).1 ⟨2, by decide +kernel⟩
  · obtain rfl := Option.some.inj h
    exact .inr (by decide)
  · intro f hf p c d hl hp hd d' c' hr
    have : ∀ {d c d' c'}, Reached files (some lib) [] d c d' c' → Stmt.junk ∉ c → Stmt.junk ∉ c' := by
      intro d c d' c' h
      induction h with
      | refl => exact id
      | incl _ _ _ hp _ _ ih => exact fun _ => ih (files_clean _ _ hp)
    exact this hr (files_clean p c hp)

/-- A name that is not found is an error. -/
example : readSpec (fun p => if p = main then some [.incl ['y'] (some [a2])] else if p = "p/y".toList then some [.form a1 false 0] else none) none 2
    [main] = .error .unknown := by decide +kernel

/-- **C86 fails for included files that are not well-formed**: the rest of such a file is dropped without a message, here the formula `b`, although
the same text in the file of the command line is an error. -/
theorem included_rest_dropped :
    readSpec (fun p => if p = main then some [.incl ['y'] none] else if p = "p/y".toList then some [.form a1 false 0, .junk, .form a2 false 1] else none)
      none 2 [main] = .ok ⟨[⟨a1, 0⟩], [], 1⟩ ∧
    readSpec (fun p => if p = main then some [.form a1 false 0, .junk, .form a2 false 1] else none) none 2 [main] = .error .syntaxErr := by
  decide +kernel

/-- The file system of one file that includes itself. -/
def loopFS : FS := fun p => if p = main then some [.incl "main".toList none] else none

/-- **C86: a file that includes itself** is read forever (E opens it again and again until no more files can be opened). -/
theorem include_cycle (n : Nat) : readSpec loopFS none n [main] = .error .fuel := by
  have h : ∀ n, readFile loopFS none [] n "p/".toList [.incl "main".toList none] = .error .fuel := by
    intro n
    induction n with
    | zero => rfl
    | succ n ih =>
      have ho : openFile loopFS none "p/".toList "main".toList = some ("p/".toList, [.incl "main".toList none]) := by decide +kernel
      rw [readFile, readWith]
      simp only [ho]
      rw [ih]
      rfl
  have ho : openFile loopFS none [] main = some ("p/".toList, [.incl "main".toList none]) := by decide +kernel
  rw [readSpec, ho]
  simp only
  rw [h n]

end IncludeEx

end Verif.Props
