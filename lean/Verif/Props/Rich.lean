import Verif.Proofs.Rich
import Verif.Props.Rename

set_option linter.unusedSectionVars false
set_option linter.unusedSimpArgs false
set_option linter.unusedVariables false

/-!
# What is seen on the console
-/

namespace Gaspra

/-! ### C70 -/

/-- C70.  Displaying items without backslashes in colour does not raise, and the console shows the
common text plain, the first sides in one colour, the second sides in another, and changed pieces
within the lines of a side in a lighter shade. -/
theorem C70_console_stream (n1 n2 : PyStr) {stream : List MItem} (h : ∀ i ∈ stream, i.NoBackslash) :
    ∃ out, markupChanges coloredLevel0 coloredLevel1 n1 n2 [] richEscape stream = (out, none) ∧
      renderAll out = stream.flatMap shownItem := by
  obtain ⟨out, h1, h2⟩ := markupStream_colored n1 n2 stream h
  exact ⟨out, by simp [markupChanges, h1], h2⟩

example : markupChanges coloredLevel0 coloredLevel1 [] [] [] richEscape
    [.text (cps "x[1] "), .change (.seq [.common (cps "a"), .change (cps "[b]") []]) (.str (cps "c"))] =
    ([cps "x\\[1] ", cps "[green4]a[light_green]\\[b][/][/]", [], cps "[dark_red]c[/]"], none) := by
  decide +kernel
example : renderAll [cps "x\\[1] ", cps "[green4]a[light_green]\\[b][/][/]", [], cps "[dark_red]c[/]"] =
    styled [] (cps "x[1] ") ++ styled [lit "green4"] (cps "a") ++
      styled [lit "light_green", lit "green4"] (cps "[b]") ++ styled [lit "dark_red"] (cps "c") := by
  decide +kernel

/-- C70.  `gaspra-diff` on the console, with any tokenization, of texts without backslashes: it
never raises; without the characters in the colour of deletions one sees the modified text, and
without those in the colour of insertions the original text, both followed by one newline at most,
and only if lines are shown. -/
theorem C70_diff_console (cls sp : Nat → Bool) {args : Args} (h : args.Console)
    (hs : args.strikeout = false) (on mn : PyStr) {o m : PyStr} (ho : ValidStr o) (hm : ValidStr m)
    (bo : 92 ∉ o) (bm : 92 ∉ m) :
    ∃ out, diffCli cls sp args {} on mn o m = ({}, out, none) ∧
      ConsoleOutput args.showLines out m o := by
  obtain ⟨_, hc, hl, hy⟩ := C58_diff_alternates cls
  unfold diffCli
  split
  · exact diffRun_console hy sp h hs on mn trivial trivial bo bm
  · split
    · exact diffRun_console hl sp h hs on mn trivial trivial bo bm
    · exact diffRun_console hc sp h hs on mn ho hm bo bm

example : (diffCli asciiWord pyIsSpace {} {} (cps "old") (cps "new") (cps "a[0]b") (cps "a[1]b")).2 =
    ([cps "a\\[", cps "[green4]1[/]", [], cps "[dark_red]0[/]", cps "]b"], none) := by decide +kernel
example : without (lit "dark_red") (renderAll [cps "a\\[", cps "[green4]1[/]", [], cps "[dark_red]0[/]",
    cps "]b"]) = cps "a[1]b" := by decide +kernel
example : (diffCli asciiWord pyIsSpace { showLines := true } {} (cps "old") (cps "new") (cps "p\nab\n")
    (cps "p\nac\n")).2 =
    ([cps "p\n", cps "[green4]a[light_green]c[/]\n[/]", [], cps "[dark_red]a[pink1]b[/]\n[/]"], none) := by
  decide +kernel
example : ({ showLines := true } : Args).Console := ⟨rfl, rfl⟩

theorem CliPieces.flatten {cls : Nat → Bool} {args : Args} {x : PyStr} {qs : List PyStr}
    (h : CliPieces cls args x qs) : qs.flatten = x := by
  unfold CliPieces at h
  split at h
  · exact h.1
  · split at h
    · exact h.1
    · rw [h.1]
      clear h
      induction x with
      | nil => rfl
      | cons c x ih => simp [ih]

/-- C70.  `gaspra-merge` on the console, with or without strikeout: the same for the two texts of
the merge of the pieces. -/
theorem C70_merge_console (cls sp : Nat → Bool) {args : Args} (h : args.Console) (hd : args.diff = false)
    (pn cn on : PyStr) {p c o : PyStr} {qp qc qo : List PyStr} (hp : CliPieces cls args p qp)
    (hc : CliPieces cls args c qc) (ho : CliPieces cls args o qo) (bc : 92 ∉ c) (bo : 92 ∉ o) :
    ∃ d out, mergeTokenSequence .tuple qp qc qo = .ok d ∧
      mergeCli cls sp args {} pn cn on p c o = ({}, out, none) ∧
      ConsoleOutput args.showLines out (intoText (d.map DiffItem.joined))
        (fromText (d.map DiffItem.joined)) := by
  obtain ⟨S, tk, e, T⟩ := mergeCli_eq cls sp args pn cn on hp hc ho
  obtain ⟨d, h1, h2, h3⟩ := mergeRun_display sp hd {} pn cn on T
  obtain ⟨d0, d0h, _⟩ := C12_diff_normal_form qp qc
  obtain ⟨d1, d1h, _⟩ := C12_diff_normal_form qp qo
  have ht := (C19_tokens h1 d0h d1h).1
  have hq : ∀ x ∈ d, ∀ q ∈ x.tokens, 92 ∉ q := by
    intro x hx q hqx hb
    rcases ht q ⟨x, hx, hqx⟩ with h | h
    · exact bc (by rw [← hc.flatten]; exact List.mem_flatten.2 ⟨q, h, hb⟩)
    · exact bo (by rw [← ho.flatten]; exact List.mem_flatten.2 ⟨q, h, hb⟩)
  have hb : 92 ∉ intoText (d.map DiffItem.joined) ∧ 92 ∉ fromText (d.map DiffItem.joined) := by
    constructor
    · intro hb
      obtain ⟨y, hy, hb⟩ := List.mem_flatMap.1 hb
      obtain ⟨x, hx, rfl⟩ := List.mem_map.1 hy
      cases x <;>
      · obtain ⟨q, hq1, hq2⟩ := List.mem_flatten.1 hb
        exact hq _ hx q (by simp [DiffItem.tokens, hq1]) hq2
    · intro hb
      obtain ⟨y, hy, hb⟩ := List.mem_flatMap.1 hb
      obtain ⟨x, hx, rfl⟩ := List.mem_map.1 hy
      cases x <;>
      · obtain ⟨q, hq1, hq2⟩ := List.mem_flatten.1 hb
        exact hq _ hx q (by simp [DiffItem.tokens, hq1]) hq2
  obtain ⟨out, o1, o2⟩ := display_console sp h h2 hb.1 hb.2 cn on
  refine ⟨d, out, h1, ?_, o2⟩
  rw [e, h3, console_style h false (.inr rfl), o1]

example : (mergeCli asciiWord pyIsSpace { words := true, strikeout := true } {} (cps "p") (cps "c") (cps "o")
    (cps "one two\n") (cps "one 2\n") (cps "one deux\n")).2 =
    ([cps "one ", cps "[green4]2[/]", [], cps "[dark_red]deux[/]", cps "\n"], none) := by decide +kernel

/-- C70.  Backslashes: a deletion that ends in one takes the end of the style with it, which is then
shown as text in place of the backslash. -/
theorem C70_backslash :
    (diffCli asciiWord pyIsSpace {} {} (cps "old") (cps "new") (cps "a\\") (cps "a")).2 =
      ([cps "a", [], cps "[dark_red]\\[/]"], none) ∧
    without (lit "green4") (renderAll [cps "a", [], cps "[dark_red]\\[/]"]) = cps "a[/]" := by
  decide +kernel

/-! ### C49, C59 -/

/-- C49.  Without diffs, `gaspra-merge` takes no notice of strikeout. -/
theorem C49_merge_ignores_strikeout (cls sp : Nat → Bool) (args : Args) (hd : args.diff = false)
    (strikeout : Bool) (t : Tables) (pn cn on p c o : PyStr) :
    mergeCli cls sp { args with strikeout := strikeout } t pn cn on p c o =
      mergeCli cls sp args t pn cn on p c o := by
  have style : getMarkupStyle { args with strikeout := strikeout } false t = getMarkupStyle args false t := by
    simp [getMarkupStyle, Args.toFile]
  have run : ∀ {S : Type} (tk : Tokenizer (List Nat) S),
      mergeRun tk sp { args with strikeout := strikeout } t pn cn on p c o =
        mergeRun tk sp args t pn cn on p c o := by
    intro S tk
    have key : ∀ a b : Args, a.diff = false → b.diff = false →
        getMarkupStyle a false t = getMarkupStyle b false t →
        (∀ st ch b0 b1 h, displayChanges sp st a ch b0 b1 h = displayChanges sp st b ch b0 b1 h) →
        mergeRun tk sp a t pn cn on p c o = mergeRun tk sp b t pn cn on p c o := by
      intro a b ha hb e1 e2
      unfold mergeRun
      simp only [ha, hb, e1, e2, Bool.false_eq_true, if_false]
    exact key _ _ hd hd style fun _ _ _ _ _ => rfl
  simp only [mergeCli, run]

theorem pySplit_last {β : Type _} [DecidableEq β] (sep : β) (d : List β) : ∀ (s : List β), ∃ b,
    (pySplit sep s).getLastD d = b ∧ sep ∉ b ∧ (s = b ∨ ∃ pre, s = pre ++ sep :: b)
  | [] => ⟨[], rfl, by simp, .inl rfl⟩
  | c :: s => by
    obtain ⟨b, h1, h2, h3⟩ := pySplit_last sep d s
    unfold pySplit
    by_cases hc : c = sep
    · subst hc
      rw [if_pos rfl]
      refine ⟨b, ?_, h2, ?_⟩
      · cases hp : pySplit c s with
        | nil => cases s <;> simp [pySplit] at hp; split at hp <;> (try split at hp) <;> simp at hp
        | cons x xs => rw [hp] at h1; simpa [List.getLastD] using h1
      · rcases h3 with rfl | ⟨pre, rfl⟩
        · exact .inr ⟨[], rfl⟩
        · exact .inr ⟨c :: pre, rfl⟩
    · rw [if_neg hc]
      cases hp : pySplit sep s with
      | nil => cases s <;> simp [pySplit] at hp; split at hp <;> (try split at hp) <;> simp at hp
      | cons x xs =>
        rw [hp] at h1
        cases xs with
        | nil =>
          have hx : x = b := by simpa [List.getLastD] using h1
          subst hx
          have hs : sep ∉ s := by
            intro hm
            have : ∀ (l : List β), sep ∈ l → (pySplit sep l).length ≠ 1 := by
              intro l
              induction l with
              | nil => intro h; simp at h
              | cons y l ih =>
                intro h
                unfold pySplit
                split
                · cases l <;> simp [pySplit]
                  split <;> (try split) <;> simp
                · next hy =>
                  have hl : sep ∈ l := by
                    rcases List.mem_cons.1 h with h | h
                    · exact absurd h.symm hy
                    · exact h
                  have := ih hl
                  split
                  · next e => rw [e] at this; simp at this ⊢; cases l <;> simp [pySplit] at e; split at e <;> (try split at e) <;> simp at e
                  · next e => rw [e] at this; simpa using this
            exact this s hm (by rw [hp]; rfl)
          refine ⟨c :: x, rfl, by simp [h2, Ne.symm hc], .inl ?_⟩
          rcases h3 with rfl | ⟨pre, rfl⟩
          · rfl
          · simp at hs
        | cons y ys =>
          refine ⟨b, by simpa [List.getLastD] using h1, h2, ?_⟩
          rcases h3 with rfl | ⟨pre, rfl⟩
          · exfalso
            have : ∀ (l : List β), sep ∉ l → (pySplit sep l).length = 1 := by
              intro l
              induction l with
              | nil => intro _; rfl
              | cons y l ih =>
                intro h
                have := ih fun h' => h (by simp [h'])
                unfold pySplit
                rw [if_neg (fun e => h (by simp [e]))]
                split
                · rfl
                · next e => rw [e] at this; simpa using this
            have := this s h2
            rw [hp] at this
            simp at this
          · exact .inr ⟨c :: pre, rfl⟩

/-- C59.  The names in the markers are the file names without the directories. -/
theorem C59_marker_names (path : PyStr) :
    47 ∉ basename path ∧ (path = basename path ∨ ∃ dir, path = dir ++ 47 :: basename path) := by
  obtain ⟨b, h1, h2, h3⟩ := pySplit_last 47 [] path
  have hb : basename path = b := h1
  rw [hb]
  exact ⟨h2, h3⟩

example : basename (cps "dir/sub/file.txt") = cps "file.txt" := by decide

end Gaspra
