import Verif.Model.Changesets

/-!
# Counting the steps of the suffix automaton

The functions of `Model/SuffixAutomaton.lean` once more, together with the number of steps they
take.  A step is one round of a loop, one copied transition of `transitions.copy()` or one node
created; a dictionary access is part of a step.  Leaving out the count gives back the original
functions (theorem `C64_same_result`).
-/

namespace Gaspra

variable {α : Type _} [DecidableEq α]

/-- `addLoop` with the number of rounds (suffix_automaton.py:124-129). -/
def addLoopC (tok : α) (new : Nat) : Nat → Heap α → Option Nat → Option Nat →
    Option ((Heap α × Option Nat × Option Nat) × Nat)
  | _, h, prev, none => some ((h, prev, none), 0)
  | 0, _, _, some _ => none
  | f + 1, h, prev, some cur =>
    match h[cur]? with
    | none => none
    | some nd =>
      match dget nd.transitions tok with
      | some _ => some ((h, prev, some cur), 0)
      | none =>
        match addLoopC tok new f (h.set cur { nd with transitions := dset nd.transitions tok new })
          (some cur) nd.link with
        | none => none
        | some (r, n) => some (r, n + 1)

/-- `redirectLoop` with the number of rounds (suffix_automaton.py:157-164). -/
def redirectLoopC (tok : α) (q clone : Nat) : Nat → Heap α → Option Nat → Option (Heap α × Nat)
  | _, h, none => some (h, 0)
  | 0, _, some _ => none
  | f + 1, h, some cur =>
    match h[cur]? with
    | none => none
    | some nd =>
      if dget nd.transitions tok = some q then
        match redirectLoopC tok q clone f
          (h.set cur { nd with transitions := dset nd.transitions tok clone }) nd.link with
        | none => none
        | some (h', n) => some (h', n + 1)
      else some (h, 0)

/-- `insertNode` with the number of steps (suffix_automaton.py:143-166): the node, the copied
transitions and the rounds of the loop. -/
def insertNodeC (tok : α) (p q : Nat) (h : Heap α) : Option ((Heap α × Nat) × Nat) :=
  match h[p]?, h[q]? with
  | some pn, some qn =>
    let clone := h.length
    let h1 := h ++ [{ length := pn.length + 1, firstEndpos := qn.firstEndpos,
                      link := qn.link, transitions := qn.transitions }]
    let h2 := h1.set q { qn with link := some clone }
    match redirectLoopC tok q clone (pn.length + 1) h2 (some p) with
    | none => none
    | some (h3, n) => some ((h3, clone), 1 + qn.transitions.length + n)
  | _, _ => none

/-- `extend` with the number of steps (suffix_automaton.py:107-140). -/
def extendC (tok : α) (last : Nat) (h : Heap α) : Option ((Heap α × Nat) × Nat) :=
  match h[last]? with
  | none => none
  | some ln =>
    let new := h.length
    let h1 := h ++ [{ length := ln.length + 1, firstEndpos := ln.length + 1 }]
    match addLoopC tok new (ln.length + 1) h1 none (some last) with
    | none => none
    | some ((h2, prev, none), n) => some ((setLink h2 new prev, new), 1 + n)
    | some ((h2, _, some cur), n) =>
      match h2[cur]? with
      | none => none
      | some cn =>
        match dget cn.transitions tok with
        | none => none
        | some q =>
          match h2[q]? with
          | none => none
          | some qn =>
            if qn.length = cn.length + 1 then
              some ((setLink h2 new (some q), new), 1 + n)
            else
              match insertNodeC tok cur q h2 with
              | none => none
              | some ((h3, clone), m) => some ((setLink h3 new (some clone), new), 1 + n + m)

/-- `extendAll` with the number of steps (suffix_automaton.py:92-96). -/
def extendAllC : List α → Nat → Heap α → Option ((Heap α × Nat) × Nat)
  | [], last, h => some ((h, last), 0)
  | t :: ts, last, h =>
    match extendC t last h with
    | none => none
    | some ((h', last'), n) =>
      match extendAllC ts last' h' with
      | none => none
      | some (r, m) => some (r, n + m)

/-- `markTerminals` with the number of rounds (suffix_automaton.py:169-174). -/
def markTerminalsC : Nat → Heap α → Option Nat → Option (Heap α × Nat)
  | _, h, none => some (h, 0)
  | 0, _, some _ => none
  | f + 1, h, some cur =>
    match h[cur]? with
    | none => none
    | some nd =>
      match markTerminalsC f (h.set cur { nd with isTerminal := true }) nd.link with
      | none => none
      | some (h', n) => some (h', n + 1)

/-- `build` with the number of steps (suffix_automaton.py:60-104); `add_reverse_links` takes one step
per node, and the root is one more node. -/
def buildC (tokens : List α) : Option (Heap α × Nat) :=
  match extendAllC tokens 0 [{}] with
  | none => none
  | some ((h, last), n) =>
    match h[last]? with
    | none => none
    | some ln =>
      match markTerminalsC (ln.length + 1) h (some last) with
      | none => none
      | some (h', m) => some (addReverseLinks h', 1 + n + m + h'.length)

/-- `lcsClimb` with the number of links followed (suffix_automaton.py:265-269). -/
def lcsClimbC (h : Heap α) (tok : α) : Nat → Nat → Nat → Option ((Option Nat × Nat × Nat) × Nat)
  | 0, _, _ => none
  | f + 1, cur, len =>
    match h[cur]? with
    | none => none
    | some nd =>
      match dget nd.transitions tok with
      | some nxt => some ((some nxt, cur, len), 0)
      | none =>
        match nd.link with
        | none => some ((none, cur, len), 0)
        | some l =>
          match h[l]? with
          | none => none
          | some ln =>
            match lcsClimbC h tok f l ln.length with
            | none => none
            | some (r, n) => some (r, n + 1)

/-- `lcsStep` with the number of steps (suffix_automaton.py:264-279). -/
def lcsStepC (h : Heap α) (st : LcsState) (pos : Nat) (tok : α) : Option (LcsState × Nat) :=
  match lcsClimbC h tok (h.length + 1) st.current st.curLen with
  | none => none
  | some ((nxt, cur, len), n) =>
    let (cur, len) := match nxt with
      | some n => (n, len + 1)
      | none => (cur, len)
    if st.bestLen < len then
      some ({ current := cur, curLen := len, bestLen := len,
              bestEnd1 := endposOf h cur, bestEnd2 := pos + 1 }, n + 1)
    else
      some ({ st with current := cur, curLen := len }, n + 1)

/-- `lcsLoop` with the number of steps. -/
def lcsLoopC (h : Heap α) : LcsState → Nat → List α → Option (LcsState × Nat)
  | st, _, [] => some (st, 0)
  | st, pos, t :: ts =>
    match lcsStepC h st pos t with
    | none => none
    | some (st', n) =>
      match lcsLoopC h st' (pos + 1) ts with
      | none => none
      | some (r, m) => some (r, n + m)

/-- `saFindLcs` with the number of steps (suffix_automaton.py:237-285). -/
def saFindLcsC (h : Heap α) (s : List α) : Option ((Nat × Nat × Nat) × Nat) :=
  match lcsLoopC h ⟨0, 0, 0, 0, 0⟩ 0 s with
  | none => none
  | some (st, n) => some ((st.bestEnd1 - st.bestLen, st.bestEnd2 - st.bestLen, st.bestLen), n)

/-- `findLcs` with the number of steps (wrappers.py:24-47). -/
def findLcsC (a b : List α) : Option ((Nat × Nat × Nat) × Nat) :=
  match buildC a with
  | none => none
  | some (h, n) =>
    match saFindLcsC h b with
    | none => none
    | some (r, m) => some (r, n + m)

/-- `findChangesetAux` with the number of steps of its calls of `find_lcs`
(changesets.py:213-261). -/
def findChangesetAuxC (original modified : List α) :
    Nat → Slice → Slice → Option (Changeset α × Nat)
  | 0, _, _ => none
  | f + 1, os, ms =>
    match findLcsC (os.get original) (ms.get modified) with
    | none => none
    | some ((offO, offM, len), n) =>
      if len = 0 then
        some (.leaf (os.get original) (ms.get modified) os ms, n)
      else
        let commonO : Slice := ⟨os.start + offO, some (os.start + offO + len)⟩
        let commonM : Slice := ⟨ms.start + offM, some (ms.start + offM + len)⟩
        match findChangesetAuxC original modified f
            ⟨os.start, some (os.start + offO)⟩ ⟨ms.start, some (ms.start + offM)⟩ with
        | none => none
        | some (p, n1) =>
          match findChangesetAuxC original modified f
              ⟨os.start + offO + len, os.stop⟩ ⟨ms.start + offM + len, ms.stop⟩ with
          | none => none
          | some (s, n2) => some (.node commonO commonM p s, n + n1 + n2)

/-- `findChangeset` with the number of steps. -/
def findChangesetC (original modified : List α) : Option (Changeset α × Nat) :=
  findChangesetAuxC original modified (original.length + 1) ⟨0, none⟩ ⟨0, none⟩

end Gaspra
