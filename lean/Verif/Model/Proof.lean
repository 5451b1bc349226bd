import Verif.Model.Base

/-!
# Proofs and the proof iterator

Model of `ast/proof.rs` and `ast/iter.rs`.
-/

namespace Carcara

/-- Model of `ast/proof.rs:72-80 enum AnchorArg`. -/
inductive AnchorArg where
  | var (x : String) (s : Srt)
  | assign (x : String) (s : Srt) (value : Term)
deriving DecidableEq

/-- Model of `ast/proof.rs:30-56 struct ProofStep`. -/
structure Step where
  id : String
  clause : List Term
  rule : String
  premises : List (Nat × Nat) := []
  args : List Term := []
  discharge : List (Nat × Nat) := []
deriving DecidableEq

/-- Model of `ast/proof.rs:17-28 enum ProofCommand` and `58-73 struct Subproof`. -/
inductive Command where
  | assume (id : String) (term : Term)
  | step (s : Step)
  | subproof (commands : List Command) (args : List AnchorArg) (contextId : Nat)

mutual
/-- Structural equality test on commands. -/
def Command.beq : Command → Command → Bool
  | .assume i t, .assume i' t' => decide (i = i') && decide (t = t')
  | .step s, .step s' => decide (s = s')
  | .subproof cs as n, .subproof cs' as' n' => Command.beqL cs cs' && decide (as = as') && decide (n = n')
  | _, _ => false
/-- Structural equality test on lists of commands. -/
def Command.beqL : List Command → List Command → Bool
  | [], [] => true
  | a :: as, b :: bs => a.beq b && Command.beqL as bs
  | _, _ => false
end

mutual
theorem Command.beq_refl : (a : Command) → a.beq a = true
  | .assume _ _ => by simp [Command.beq]
  | .step _ => by simp [Command.beq]
  | .subproof cs _ _ => by simp [Command.beq, Command.beqL_refl cs]
theorem Command.beqL_refl : (as : List Command) → Command.beqL as as = true
  | [] => rfl
  | a :: as => by simp [Command.beqL, Command.beq_refl a, Command.beqL_refl as]
end

mutual
theorem Command.eq_of_beq : (a b : Command) → a.beq b = true → a = b
  | .assume _ _, b, h => by cases b <;> simp_all [Command.beq]
  | .step _, b, h => by cases b <;> simp_all [Command.beq]
  | .subproof cs as n, b, h => by
      cases b with
      | subproof cs' as' n' =>
        simp only [Command.beq, Bool.and_eq_true, decide_eq_true_eq] at h
        rw [Command.eq_of_beqL cs cs' h.1.1, h.1.2, h.2]
      | _ => simp [Command.beq] at h
theorem Command.eq_of_beqL : (as bs : List Command) → Command.beqL as bs = true → as = bs
  | [], bs, h => by cases bs <;> simp_all [Command.beqL]
  | a :: as, bs, h => by
      cases bs with
      | nil => simp [Command.beqL] at h
      | cons b bs =>
        simp only [Command.beqL, Bool.and_eq_true] at h
        rw [Command.eq_of_beq a b h.1, Command.eq_of_beqL as bs h.2]
end

instance : DecidableEq Command := fun a b =>
  if h : a.beq b = true then .isTrue (Command.eq_of_beq a b h)
  else .isFalse fun e => h (e ▸ Command.beq_refl a)

mutual
/-- Model of `ast/proof.rs:94-103 ProofCommand::id`; `commands.last().unwrap()` panics on an empty subproof. -/
def Command.id : Command → Res String
  | .assume i _ => .ok i
  | .step s => .ok s.id
  | .subproof cs _ _ => Command.idLast cs
/-- `commands.last().unwrap().id()`. -/
def Command.idLast : List Command → Res String
  | [] => panic
  | [c] => c.id
  | _ :: cs => Command.idLast cs
end

mutual
/-- Model of `ast/proof.rs:105-117 ProofCommand::clause`. -/
def Command.clause : Command → Res (List Term)
  | .assume _ t => .ok [t]
  | .step s => .ok s.clause
  | .subproof cs _ _ => Command.clauseLast cs
/-- `commands.last().unwrap().clause()`. -/
def Command.clauseLast : List Command → Res (List Term)
  | [] => panic
  | [c] => c.clause
  | _ :: cs => Command.clauseLast cs
end

/-- Model of `ast/proof.rs:119-122 is_assume`. -/
def Command.isAssume : Command → Bool
  | .assume _ _ => true
  | _ => false

/-- Model of `ast/proof.rs:124-127 is_step`. -/
def Command.isStep : Command → Bool
  | .step _ => true
  | _ => false

/-! ## The iterator -/

/-- Model of `ast/iter.rs:36-38 struct ProofIter`: a stack of (number of commands consumed, commands). The
innermost frame is the HEAD of the list here and the last element of the `Vec` in the code. -/
abbrev Iter := List (Nat × List Command)

namespace Iter

/-- Model of `ast/iter.rs:41-43 new`. -/
def start (commands : List Command) : Iter := [(0, commands)]

/-- Model of `ast/iter.rs:46-48 depth` (the stack is never empty). -/
def depth (it : Iter) : Nat := it.length - 1

/-- Model of `ast/iter.rs:51-53 is_in_subproof`. -/
def isInSubproof (it : Iter) : Bool := 0 < it.depth

/-- Model of `ast/iter.rs:57-59 current_subproof`. -/
def currentSubproof (it : Iter) : Option (List Command) :=
  if it.isInSubproof then it.head?.map (·.2) else none

/-- Model of `ast/iter.rs:62-67 is_end_step`. -/
def isEndStep (it : Iter) : Bool :=
  it.isInSubproof && match it with
    | (i, cs) :: _ => i == cs.length
    | [] => false

/-- Model of `ast/iter.rs:70-72 get_premise`: `&self.stack[depth].1[index]`, which panics when either index is
out of range. -/
def getPremise (it : Iter) (p : Nat × Nat) : Res Command := do
  let f ← orPanic it.reverse[p.1]?
  orPanic f.2[p.2]?

/-- Model of `ast/iter.rs:77-97 next`. The counter never exceeds the length, so `*i == commands.len()` is
written `¬ i < cs.length`. -/
def next : Iter → Option (Command × Iter)
  | [] => none
  | (i, cs) :: rest =>
    match cs[i]? with
    | none => if rest = [] then none else next rest
    | some (.subproof sub as n) => some (.subproof sub as n, (0, sub) :: (i + 1, cs) :: rest)
    | some c => some (c, (i + 1, cs) :: rest)

end Iter

mutual
/-- Number of commands in a command tree. -/
def Command.size : Command → Nat
  | .assume _ _ => 1
  | .step _ => 1
  | .subproof cs _ _ => Command.sizeL cs + 1
/-- Number of commands in a list of command trees. -/
def Command.sizeL : List Command → Nat
  | [] => 0
  | c :: cs => c.size + Command.sizeL cs
end

/-- Number of commands an iterator still has to visit. -/
def Iter.remaining : Iter → Nat
  | [] => 0
  | (i, cs) :: rest => Command.sizeL (cs.drop i) + Iter.remaining rest

theorem Command.size_pos (c : Command) : 0 < c.size := by
  cases c <;> simp [Command.size]

theorem Iter.next_remaining : (it : Iter) → (c : Command) → (it' : Iter) → it.next = some (c, it') →
    it'.remaining < it.remaining
  | [], c, it', h => by simp [Iter.next] at h
  | (i, cs) :: rest, c, it', h => by
    rw [Iter.next] at h
    split at h
    · split at h
      · simp at h
      · have := Iter.next_remaining rest c it' h
        simp only [Iter.remaining]; omega
    · next sub as n heq =>
      simp only [Option.some.injEq, Prod.mk.injEq] at h
      obtain ⟨rfl, rfl⟩ := h
      obtain ⟨hi, he⟩ := List.getElem?_eq_some_iff.1 heq
      have hd : cs.drop i = .subproof sub as n :: cs.drop (i + 1) := by
        rw [← he]; exact List.drop_eq_getElem_cons hi
      simp only [Iter.remaining, hd, Command.sizeL, Command.size, List.drop_zero]
      omega
    · next c' _ heq =>
      simp only [Option.some.injEq, Prod.mk.injEq] at h
      obtain ⟨rfl, rfl⟩ := h
      obtain ⟨hi, he⟩ := List.getElem?_eq_some_iff.1 heq
      have hd : cs.drop i = c' :: cs.drop (i + 1) := by
        rw [← he]; exact List.drop_eq_getElem_cons hi
      have := c'.size_pos
      simp only [Iter.remaining, hd, Command.sizeL]
      omega

/-- Everything the iterator returns, with its state afterwards. -/
def Iter.visits (it : Iter) : List (Command × Iter) :=
  match h : it.next with
  | none => []
  | some (c, it') => (c, it') :: it'.visits
termination_by it.remaining
decreasing_by exact Iter.next_remaining _ _ _ h

end Carcara
