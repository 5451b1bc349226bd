import Verif.Model.SharedContext

/-!
# Specification: contexts without sharing

What the operations of a thread give if it has the contexts for itself, and which operations a thread may perform: contexts form a tree, and a
context is always opened in the same place.
-/

namespace Carcara.Spec

variable {S : Type}

/-- The substitution of nested anchors, outermost first. -/
def ctxValue (O : SubstOps S) (st : List (List AnchorArg)) : S := st.foldl O.extend O.empty

/-- What the operations of a single thread give, from a stack of contexts. -/
def seqOut (O : SubstOps S) : List (List AnchorArg) → List CtxOp → List (CtxOut S)
  | _, [] => []
  | st, .push _ as :: ops => seqOut O (st ++ [as]) ops
  | st, .pop :: ops => seqOut O st.dropLast ops
  | st, .apply k :: ops => .subst (ctxValue O (st.take (k + 1))) :: seqOut O st ops
  | st, .look :: ops => match st.getLast? with
    | some as => .args as :: seqOut O st ops
    | none => seqOut O st ops

/-- The operations respect the tree of contexts: `chain id` are the contexts from the outermost one to `id`, with their arguments. Only contexts in
the stack are used. -/
def ValidOps (chain : Nat → List (Nat × List AnchorArg)) : List (Nat × List AnchorArg) → List CtxOp → Prop
  | _, [] => True
  | st, .push id as :: ops => chain id = st ++ [(id, as)] ∧ ValidOps chain (st ++ [(id, as)]) ops
  | st, .pop :: ops => ValidOps chain st.dropLast ops
  | st, .apply k :: ops => k < st.length ∧ ValidOps chain st ops
  | st, .look :: ops => st ≠ [] ∧ ValidOps chain st ops

/-- How often the operations push a context. -/
def pushCount (id : Nat) : List CtxOp → Nat
  | [] => 0
  | .push n _ :: ops => (if n = id then 1 else 0) + pushCount id ops
  | _ :: ops => pushCount id ops

/-- The thread has done all of its operations. -/
def CtxThread.finished (t : CtxThread S) : Prop := t.ops = [] ∧ t.phase = .idle

/-- The thread uses the context, or will use it. -/
def CtxThread.needs (t : CtxThread S) (id : Nat) : Prop := id ∈ t.stack ∨ 0 < pushCount id t.ops

end Carcara.Spec
