import Mathlib.Logic.Relation
import Verif.Model.NodeList
import Verif.Spec.NodeList
import Verif.Spec.ProofParser
import Verif.Lemmas.MapRes

/-!
# Lemmas on the conversion between lists and forests
-/

namespace Carcara

open Relation

mutual
/-- The references of the steps of a command are to earlier commands; `outer` and `k` are the numbers of commands before it at each level. -/
def Command.scoped (outer : List Nat) (k : Nat) : Command → Prop
  | .assume _ _ => True
  | .step s => ∀ p ∈ s.premises ++ s.discharge, ∃ m, (outer ++ [k])[p.1]? = some m ∧ p.2 < m
  | .subproof cs _ _ => Command.scopedL (outer ++ [k]) 0 cs
def Command.scopedL (outer : List Nat) (k : Nat) : List Command → Prop
  | [] => True
  | c :: cs => c.scoped outer k ∧ Command.scopedL outer (k + 1) cs
end

section
variable {proof : List Command} (hall : ∀ F Γ s, Occ proof F Γ (.step s) → s.wellScoped F)
include hall

mutual
theorem scoped_of_occ (c : Command) (k : Nat) (cs : List Command) (F : Frames) (Γ : List (List AnchorArg))
    (h : Occ proof ((k, cs) :: F) Γ c) : c.scoped F.path k := by
  match c with
  | .assume _ _ => trivial
  | .step s =>
    intro p hp
    obtain ⟨j, cs', c, hj, hlt, -⟩ := hall _ _ _ h p hp
    refine ⟨j, ?_, hlt⟩
    have : F.path ++ [k] = (((k, cs) :: F).map (·.1)).reverse := by simp [Frames.path]
    rw [this, ← List.map_reverse, List.getElem?_map, hj]; rfl
  | .subproof ds as n =>
    have : F.path ++ [k] = Frames.path ((k, cs) :: F) := by simp [Frames.path]
    show Command.scopedL _ _ _
    rw [this]
    exact scopedL_of_occ ds ds 0 ((k, cs) :: F) (Γ ++ [as]) (fun i c hc => by simpa using Occ.sub h hc)
theorem scopedL_of_occ (cs all : List Command) (k : Nat) (F : Frames) (Γ : List (List AnchorArg))
    (h : ∀ i c, cs[i]? = some c → Occ proof ((k + i, all) :: F) Γ c) : Command.scopedL F.path k cs := by
  match cs with
  | [] => trivial
  | c :: cs =>
    refine ⟨scoped_of_occ c k all F Γ (h 0 c rfl), scopedL_of_occ cs all (k + 1) F Γ fun i c hc => ?_⟩
    have := h (i + 1) c (by simpa using hc)
    rwa [show k + 1 + i = k + (i + 1) by omega]
end

theorem scopedL_proof : Command.scopedL [] 0 proof :=
  scopedL_of_occ hall proof proof 0 [] [] fun i c hc => by simpa using Occ.top hc

end

/-! ## Iterations -/

def LState.Reach : LState → LState → Prop := ReflTransGen fun st st' => st.next = .ok (.inl st')

theorem LState.run_of_reach {st st' : LState} {cs : List Command} (h : st.Reach st') (h' : st'.next = .ok (.inr cs)) :
    ∃ k, ∀ m, k ≤ m → LState.run m st = .ok (some cs) := by
  induction h using ReflTransGen.head_induction_on with
  | refl =>
    refine ⟨1, fun m hm => ?_⟩
    obtain ⟨m, rfl⟩ : ∃ m', m = m' + 1 := ⟨m - 1, by omega⟩
    rw [LState.run, h']; rfl
  | head h _ ih =>
    obtain ⟨k, ih⟩ := ih
    refine ⟨k + 1, fun m hm => ?_⟩
    obtain ⟨m, rfl⟩ : ∃ m', m = m' + 1 := ⟨m - 1, by omega⟩
    rw [LState.run, h]
    exact ih m (by omega)

theorem LState.Reach.skip {seen : List (Nat × (Nat × Nat))} {did : List Nat} {stack : List (List Command)} {todo : List (ANode × Bool)} :
    ∀ {ns : List ANode}, (∀ n ∈ ns, (mapGet seen n.addr).isSome) →
      LState.Reach ⟨ns.map (·, false) ++ todo, stack, seen, did⟩ ⟨todo, stack, seen, did⟩
  | [], _ => .refl
  | n :: ns, h => by
    refine .head ?_ (LState.Reach.skip (ns := ns) fun m hm => h m (.tail _ hm))
    rw [LState.next]
    simp [h n (.head _)]

/-! ## The invariant -/

/-- The nodes of frames have the depth of their frame and old addresses; the outbound premises of a frame are in outer frames. -/
structure GoodFrames (fs : List NFrame) (next : Nat) : Prop where
  depth : ∀ (d : Nat) (f : NFrame) (i : Nat) (n : ANode), fs[d]? = some f → f.acc[i]? = some n → n.depth = .ok d ∧ n.addr < next
  outbound : ∀ (d : Nat) (f : NFrame) (n : ANode), fs[d]? = some f → n ∈ f.outbound → ∃ (d' : Nat) (f' : NFrame) (i : Nat), d' < d ∧ fs[d']? = some f' ∧ f'.acc[i]? = some n
  inj : ∀ (d : Nat) (f : NFrame) (i : Nat) (n : ANode) (d' : Nat) (f' : NFrame) (i' : Nat) (n' : ANode), fs[d]? = some f → f.acc[i]? = some n →
    fs[d']? = some f' → f'.acc[i']? = some n' → n.addr = n'.addr → n = n'

/-- The nodes of frames have been written out where they were read. -/
def SeenAt (fs : List NFrame) (seen : List (Nat × (Nat × Nat))) : Prop :=
  ∀ (d : Nat) (f : NFrame) (i : Nat) (n : ANode), fs[d]? = some f → f.acc[i]? = some n → mapGet seen n.addr = some (d, i)

theorem GoodFrames.mono {fs : List NFrame} {a b : Nat} (h : GoodFrames fs a) (hab : a ≤ b) : GoodFrames fs b :=
  ⟨fun d f i n hf hn => ⟨(h.depth d f i n hf hn).1, Nat.lt_of_lt_of_le (h.depth d f i n hf hn).2 hab⟩, h.outbound, h.inj⟩

theorem getElem?_snoc {α : Type} {l : List α} {x y : α} {d : Nat} (h : (l ++ [x])[d]? = some y) :
    (d < l.length ∧ l[d]? = some y) ∨ (d = l.length ∧ y = x) := by
  rcases Nat.lt_trichotomy d l.length with hd | hd | hd
  · rw [List.getElem?_append_left hd] at h; exact .inl ⟨hd, h⟩
  · subst hd; simp at h; exact .inr ⟨rfl, h.symm⟩
  · rw [List.getElem?_eq_none (by simp; omega)] at h; cases h

theorem getElem?_snoc_self {α : Type} {l : List α} {x : α} : (l ++ [x])[l.length]? = some x := by simp

theorem getElem?_snoc_of {α : Type} {l : List α} {x y : α} {d : Nat} (h : l[d]? = some y) : (l ++ [x])[d]? = some y := by
  rw [List.getElem?_append_left (List.getElem?_eq_some_iff.1 h).1, h]

/-- A premise of the step that comes next. -/
theorem lookupNode_ok {fs : List NFrame} {p : Nat × Nat} {m : Nat} (h : (fs.map fun f => f.acc.length)[p.1]? = some m) (hlt : p.2 < m) :
    ∃ (f : NFrame) (n : ANode), fs[p.1]? = some f ∧ f.acc[p.2]? = some n ∧ lookupNode fs p = .ok n := by
  rw [List.getElem?_map, Option.map_eq_some_iff] at h
  obtain ⟨f, hf, rfl⟩ := h
  refine ⟨f, f.acc[p.2], hf, List.getElem?_eq_getElem hlt, ?_⟩
  rw [lookupNode, hf]
  show orPanic f.acc[p.2]? = _
  rw [List.getElem?_eq_getElem hlt]; rfl

theorem lookupNodes_ok {fs : List NFrame} : ∀ {ps : List (Nat × Nat)},
    (∀ p ∈ ps, ∃ m, (fs.map fun f => f.acc.length)[p.1]? = some m ∧ p.2 < m) →
    ∃ ns, mapRes (lookupNode fs) ps = .ok ns ∧
      List.Forall₂ (fun p n => ∃ f, fs[p.1]? = some f ∧ f.acc[p.2]? = some n) ps ns
  | [], _ => ⟨[], rfl, .nil⟩
  | p :: ps, h => by
    obtain ⟨m, hm, hlt⟩ := h p (.head _)
    obtain ⟨f, n, hf, hn, hl⟩ := lookupNode_ok hm hlt
    obtain ⟨ns, hns, hall⟩ := lookupNodes_ok (ps := ps) fun q hq => h q (.tail _ hq)
    exact ⟨n :: ns, by rw [mapRes, hl]; show (mapRes _ _ >>= _) = _; rw [hns]; rfl, .cons ⟨f, hf, hn⟩ hall⟩

theorem addOutbound_ok {fs : List NFrame} {next b : Nat} (hg : GoodFrames fs next) : ∀ {ps out : List ANode},
    (∀ n ∈ ps, ∃ (d : Nat) (f : NFrame) (i : Nat), fs[d]? = some f ∧ f.acc[i]? = some n) →
    (∀ n ∈ out, ∃ (d : Nat) (f : NFrame) (i : Nat), d < b ∧ fs[d]? = some f ∧ f.acc[i]? = some n) →
    ∃ out', addOutbound b out ps = .ok out' ∧ ∀ n ∈ out', ∃ (d : Nat) (f : NFrame) (i : Nat), d < b ∧ fs[d]? = some f ∧ f.acc[i]? = some n
  | [], out, _, ho => ⟨out, rfl, ho⟩
  | p :: ps, out, hp, ho => by
    obtain ⟨d, f, i, hf, hi⟩ := hp p (.head _)
    have hd := (hg.depth d f i p hf hi).1
    obtain ⟨out', h', hout⟩ := addOutbound_ok (b := b) hg (ps := ps) (out := if d < b then insertNode out p else out)
      (fun n hn => hp n (.tail _ hn)) (by
        split
        · next hlt =>
          intro n hn
          rw [insertNode] at hn
          split at hn
          · exact ho n hn
          · rcases List.mem_append.1 hn with hn | hn
            · exact ho n hn
            · obtain rfl := List.mem_singleton.1 hn
              exact ⟨d, f, i, hlt, hf, hi⟩
        · exact ho)
    exact ⟨out', by rw [addOutbound, hd]; exact h', hout⟩

theorem positions_ok {fs : List NFrame} {st : LState} (hs : SeenAt fs st.seen) : ∀ {ps : List (Nat × Nat)} {ns : List ANode},
    List.Forall₂ (fun p n => ∃ f, fs[p.1]? = some f ∧ f.acc[p.2]? = some n) ps ns → mapRes st.pos ns = .ok ps
  | _, _, .nil => rfl
  | p :: ps, n :: ns, .cons ⟨f, hf, hn⟩ h => by
    have : st.pos n = .ok p := by rw [LState.pos, hs _ f _ n hf hn]; rfl
    rw [mapRes, this]
    show (mapRes _ _ >>= _) = _
    rw [positions_ok hs h]; rfl

/-- Writing out a node of the innermost frame. -/
theorem emit_ok {st : LState} {n : ANode} {c : Command} {d : Nat} {stack : List (List Command)} {cur : List Command} (hd : n.depth = .ok d)
    (hst : st.stack = stack ++ [cur]) (hl : stack.length = d) :
    st.emit n c = .ok { st with seen := mapInsert st.seen n.addr (d, cur.length), stack := stack ++ [cur ++ [c]] } := by
  subst hl
  rw [LState.emit, hd]
  show (orPanic st.stack[stack.length]? >>= _) = _
  rw [hst, getElem?_snoc_self]
  show Except.ok _ = _
  simp

theorem SeenAt.insert {outer : List NFrame} {top : NFrame} {out : List ANode} {n : ANode} {next : Nat} {seen : List (Nat × (Nat × Nat))}
    (hg : GoodFrames (outer ++ [top]) next) (hs : SeenAt (outer ++ [top]) seen) (hn : next ≤ n.addr) :
    SeenAt (outer ++ [⟨top.acc ++ [n], out⟩]) (mapInsert seen n.addr (outer.length, top.acc.length)) := by
  intro d f i m hf hm
  rw [mapGet_insert]
  rcases getElem?_snoc hf with ⟨hd, hf⟩ | ⟨rfl, rfl⟩
  · have := (hg.depth d f i m (getElem?_snoc_of hf) hm).2
    rw [if_neg (by omega)]
    exact hs d f i m (getElem?_snoc_of hf) hm
  · rcases getElem?_snoc hm with ⟨hi, hm⟩ | ⟨rfl, rfl⟩
    · have := (hg.depth _ top i m getElem?_snoc_self hm).2
      rw [if_neg (by omega)]
      exact hs _ top i m getElem?_snoc_self hm
    · rw [if_pos rfl]

theorem GoodFrames.snoc {outer : List NFrame} {top : NFrame} {out : List ANode} {n : ANode} {next next' : Nat}
    (hg : GoodFrames (outer ++ [top]) next) (hle : next ≤ n.addr) (hd : n.depth = .ok outer.length) (hn : n.addr < next')
    (ho : ∀ m ∈ out, ∃ (d : Nat) (f : NFrame) (i : Nat), d < outer.length ∧ (outer ++ [top])[d]? = some f ∧ f.acc[i]? = some m) :
    GoodFrames (outer ++ [⟨top.acc ++ [n], out⟩]) next' := by
  constructor
  · intro d f i m hf hm
    rcases getElem?_snoc hf with ⟨-, hf⟩ | ⟨rfl, rfl⟩
    · have := hg.depth d f i m (getElem?_snoc_of hf) hm
      exact ⟨this.1, by omega⟩
    · rcases getElem?_snoc hm with ⟨hi, hm⟩ | ⟨rfl, rfl⟩
      · have := hg.depth _ top i m getElem?_snoc_self hm
        exact ⟨this.1, by omega⟩
      · exact ⟨hd, hn⟩
  · intro d f m hf hm
    rcases getElem?_snoc hf with ⟨hd, hf⟩ | ⟨rfl, rfl⟩
    · obtain ⟨d', f', i, hd', hf', hi⟩ := hg.outbound d f m (getElem?_snoc_of hf) hm
      rcases getElem?_snoc hf' with ⟨-, hf'⟩ | ⟨rfl, -⟩
      · exact ⟨d', f', i, hd', getElem?_snoc_of hf', hi⟩
      · omega
    · obtain ⟨d', f', i, hd', hf', hi⟩ := ho m hm
      rcases getElem?_snoc hf' with ⟨-, hf'⟩ | ⟨rfl, -⟩
      · exact ⟨d', f', i, hd', getElem?_snoc_of hf', hi⟩
      · omega
  · have key : ∀ (d : Nat) (f : NFrame) (i : Nat) (m : ANode), (outer ++ [⟨top.acc ++ [n], out⟩])[d]? = some f → f.acc[i]? = some m →
        (∃ f', (outer ++ [top])[d]? = some f' ∧ f'.acc[i]? = some m ∧ m.addr < next) ∨ m = n := by
      intro d f i m hf hm
      rcases getElem?_snoc hf with ⟨-, hf⟩ | ⟨rfl, rfl⟩
      · exact .inl ⟨f, getElem?_snoc_of hf, hm, (hg.depth d f i m (getElem?_snoc_of hf) hm).2⟩
      · rcases getElem?_snoc hm with ⟨hi, hm⟩ | ⟨rfl, rfl⟩
        · exact .inl ⟨top, getElem?_snoc_self, hm, (hg.depth _ top i m getElem?_snoc_self hm).2⟩
        · exact .inr rfl
    intro d f i m d' f' i' m' hf hm hf' hm' e
    rcases key d f i m hf hm with ⟨g, hg1, hg2, hlt⟩ | rfl <;> rcases key d' f' i' m' hf' hm' with ⟨g', hg1', hg2', hlt'⟩ | rfl
    · exact hg.inj d g i m d' g' i' m' hg1 hg2 hg1' hg2' e
    · omega
    · omega
    · rfl

theorem GoodFrames.push {fs : List NFrame} {next : Nat} (hg : GoodFrames fs next) : GoodFrames (fs ++ [({} : NFrame)]) next := by
  constructor
  · intro d f i n hf hn
    rcases getElem?_snoc hf with ⟨-, hf⟩ | ⟨-, rfl⟩
    · exact hg.depth d f i n hf hn
    · simp at hn
  · intro d f n hf hn
    rcases getElem?_snoc hf with ⟨-, hf⟩ | ⟨-, rfl⟩
    · obtain ⟨d', f', i, hd', hf', hi⟩ := hg.outbound d f n hf hn
      exact ⟨d', f', i, hd', getElem?_snoc_of hf', hi⟩
    · simp at hn
  · intro d f i m d' f' i' m' hf hm hf' hm' e
    rcases getElem?_snoc hf with ⟨-, hf⟩ | ⟨-, rfl⟩
    · rcases getElem?_snoc hf' with ⟨-, hf'⟩ | ⟨-, rfl⟩
      · exact hg.inj d f i m d' f' i' m' hf hm hf' hm' e
      · simp at hm'
    · simp at hm

theorem SeenAt.push {fs : List NFrame} {seen : List (Nat × (Nat × Nat))} (hs : SeenAt fs seen) : SeenAt (fs ++ [({} : NFrame)]) seen := by
  intro d f i n hf hn
  rcases getElem?_snoc hf with ⟨-, hf⟩ | ⟨-, rfl⟩
  · exact hs d f i n hf hn
  · simp at hn

theorem SeenAt.pop {fs : List NFrame} {f : NFrame} {seen : List (Nat × (Nat × Nat))} (hs : SeenAt (fs ++ [f]) seen) : SeenAt fs seen :=
  fun d f i n hf hn => hs d f i n (getElem?_snoc_of hf) hn

/-- The visited addresses are old. -/
def OldSeen (seen : List (Nat × (Nat × Nat))) (next : Nat) : Prop := ∀ a, (mapGet seen a).isSome → a < next

theorem OldSeen.insert {seen : List (Nat × (Nat × Nat))} {next next' a : Nat} {p : Nat × Nat} (h : OldSeen seen next) (hle : next ≤ next')
    (ha : a < next') : OldSeen (mapInsert seen a p) next' := by
  intro b hb
  rw [mapGet_insert] at hb
  split at hb
  · omega
  · have := h b hb; omega

theorem OldSeen.none {seen : List (Nat × (Nat × Nat))} {next a : Nat} (h : OldSeen seen next) (ha : next ≤ a) : mapGet seen a = none := by
  rcases e : mapGet seen a with _ | p
  · rfl
  · have := h a (by rw [e]; rfl); omega

/-- What converting the node `n` of a command does. -/
def Writes (fs fs' : List NFrame) (next next' : Nat) (ns : List ANode) (cs : List Command) (level size : Nat) : Prop :=
  ∀ seen did todo stack cur, SeenAt fs seen → OldSeen seen next → (∀ a ∈ did, a < next ∨ next' ≤ a) → stack.length = level →
    cur.length = size →
    ∃ seen' did', LState.Reach ⟨ns.map (·, false) ++ todo, stack ++ [cur], seen, did⟩ ⟨todo, stack ++ [cur ++ cs], seen', did'⟩ ∧
      SeenAt fs' seen' ∧ OldSeen seen' next' ∧ ∀ a ∈ did', a ∈ did ∨ (next ≤ a ∧ a < next')

theorem eraseCtxL_length : ∀ cs, (Command.eraseCtxL cs).length = cs.length
  | [] => rfl
  | _ :: cs => by simp [Command.eraseCtxL, eraseCtxL_length cs]

mutual
theorem command_roundtrip (c : Command) (outer : List NFrame) (top : NFrame) (next : Nat) (isLast : Bool)
    (hg : GoodFrames (outer ++ [top]) next) (hwf : c.wf = true)
    (hsc : c.scoped (outer.map fun f => f.acc.length) top.acc.length) (hlast : outer ≠ [] → isLast = true → top.acc ≠ []) :
    ∃ n out next', nodeOfCommand outer top next isLast c = .ok (n, out, next') ∧ n.depth = .ok outer.length ∧ next ≤ n.addr ∧ n.addr < next' ∧
      (∀ m ∈ out, ∃ (d : Nat) (f : NFrame) (i : Nat), d < outer.length ∧ (outer ++ [top])[d]? = some f ∧ f.acc[i]? = some m) ∧
      Writes (outer ++ [top]) (outer ++ [⟨top.acc ++ [n], out⟩]) next next' [n] [c.eraseCtx] outer.length top.acc.length := by
  have hout : ∀ m ∈ top.outbound, ∃ (d : Nat) (f : NFrame) (i : Nat), d < outer.length ∧ (outer ++ [top])[d]? = some f ∧ f.acc[i]? = some m :=
    fun m hm => hg.outbound _ top m getElem?_snoc_self hm
  match c with
  | .assume id t =>
    refine ⟨_, _, _, rfl, rfl, Nat.le_refl _, Nat.lt_succ_self _, hout, ?_⟩
    intro seen did todo stack cur hs ho hdid hl hc
    refine ⟨_, did, .single ?_, SeenAt.insert hg hs (Nat.le_refl _), ho.insert (Nat.le_succ _) (Nat.lt_succ_self _), fun a ha => .inl ha⟩
    rw [LState.next]
    simp only [List.map_cons, List.map_nil, List.cons_append, List.nil_append]
    rw [if_neg (by simp [ANode.addr, ho.none (Nat.le_refl next)])]
    rw [emit_ok (d := outer.length) rfl rfl hl]
    simp [ANode.addr, hc, Command.eraseCtx, bind, Except.bind]
  | .step s =>
    have hsizes : (outer ++ [top]).map (fun f => f.acc.length) = outer.map (fun f => f.acc.length) ++ [top.acc.length] := by simp
    rw [Command.scoped, ← hsizes] at hsc
    obtain ⟨ps, hps, hpall⟩ := lookupNodes_ok (fun p hp => hsc p (List.mem_append_left _ hp))
    obtain ⟨ds, hds, hdall⟩ := lookupNodes_ok (fun p hp => hsc p (List.mem_append_right _ hp))
    have hmem : ∀ {qs : List (Nat × Nat)} {ns : List ANode},
        List.Forall₂ (fun p n => ∃ f, (outer ++ [top])[p.1]? = some f ∧ f.acc[p.2]? = some n) qs ns →
        ∀ n ∈ ns, ∃ (d : Nat) (f : NFrame) (i : Nat), (outer ++ [top])[d]? = some f ∧ f.acc[i]? = some n := by
      intro qs ns h n hn
      induction h with
      | nil => cases hn
      | cons h _ ih =>
        rcases List.mem_cons.1 hn with rfl | hn
        · obtain ⟨f, hf, hi⟩ := h; exact ⟨_, f, _, hf, hi⟩
        · exact ih hn
    obtain ⟨out, hao, hout'⟩ := addOutbound_ok hg (hmem hpall) hout
    obtain ⟨prev, hprev, hpm⟩ : ∃ prev, (if 0 < outer.length ∧ isLast = true then (orPanic top.acc.getLast? >>= fun p => .ok (some p)) else .ok none
        : Res (Option ANode)) = .ok prev ∧ ∀ n ∈ prev.toList, ∃ (d : Nat) (f : NFrame) (i : Nat), (outer ++ [top])[d]? = some f ∧ f.acc[i]? = some n := by
      split
      · next h =>
        have hne := hlast (by rintro rfl; simp at h) h.2
        refine ⟨some (top.acc.getLast hne), by rw [List.getLast?_eq_some_getLast hne]; rfl, fun n hn => ?_⟩
        obtain rfl : n = top.acc.getLast hne := by simpa using hn
        exact ⟨_, top, top.acc.length - 1, getElem?_snoc_self, by
          rw [← List.getLast?_eq_getElem?, List.getLast?_eq_some_getLast hne]⟩
      · exact ⟨none, rfl, by simp⟩
    refine ⟨.step next ⟨s.id, outer.length, s.clause, s.rule, s.args⟩ ps ds prev, out, next + 1, ?_, ?_, ?_, ?_, hout', ?_⟩
    · rw [nodeOfCommand, hps]
      show (mapRes _ _ >>= _) = _
      rw [hds]
      show (addOutbound _ _ _ >>= _) = _
      rw [hao]
      show ((if 0 < outer.length ∧ isLast = true then (orPanic top.acc.getLast? >>= fun p => .ok (some p)) else .ok none
        : Res (Option ANode)) >>= _) = _
      rw [hprev]
      rfl
    · rfl
    · exact Nat.le_refl _
    · exact Nat.lt_succ_self _
    intro seen did todo stack cur hs ho hdid hl hc
    refine ⟨_, did, ?_, SeenAt.insert hg hs (Nat.le_refl _), ho.insert (Nat.le_succ _) (Nat.lt_succ_self _), fun a ha => .inl ha⟩
    refine .head (b := ⟨(ps ++ ds ++ prev.toList).map (·, false) ++
      (.step next ⟨s.id, outer.length, s.clause, s.rule, s.args⟩ ps ds prev, true) :: todo, stack ++ [cur], seen, did⟩) ?_ ?_
    · rw [LState.next]
      simp only [List.map_cons, List.map_nil, List.cons_append, List.nil_append]
      rw [if_neg (by simp [ANode.addr, ho.none (Nat.le_refl next)])]
      simp
    refine .trans (LState.Reach.skip ?_) (.single ?_)
    · intro n hn
      obtain ⟨d, f, i, hf, hi⟩ : ∃ (d : Nat) (f : NFrame) (i : Nat), (outer ++ [top])[d]? = some f ∧ f.acc[i]? = some n := by
        simp only [List.mem_append] at hn
        rcases hn with (hn | hn) | hn
        · exact hmem hpall n hn
        · exact hmem hdall n hn
        · exact hpm n hn
      rw [hs d f i n hf hi]; rfl
    · rw [LState.next]
      simp only
      rw [if_neg (by simp)]
      rw [positions_ok hs hpall]
      show (mapRes _ _ >>= _) = _
      rw [positions_ok hs hdall]
      show (LState.emit _ _ _ >>= _) = _
      rw [emit_ok (d := outer.length) rfl rfl hl]
      simp [ANode.addr, hc, Command.eraseCtx, bind, Except.bind]
  | .subproof cs as k =>
    rw [Command.wf, Bool.and_eq_true, Bool.and_eq_true, decide_eq_true_eq] at hwf
    have hsizes : (outer ++ [top]).map (fun f => f.acc.length) = outer.map (fun f => f.acc.length) ++ [top.acc.length] := by simp
    rw [Command.scoped, ← hsizes] at hsc
    obtain ⟨ns, out', next', hno, hlen, hle, hg', hw⟩ := commands_roundtrip cs (outer ++ [top]) {} next hg.push hwf.2 hsc
      (fun _ => by simpa using hwf.1.1)
    have hne : ns ≠ [] := by rintro rfl; simp at hlen; have := hwf.1.1; omega
    have hlastn : (outer ++ [top] ++ [⟨[] ++ ns, out'⟩])[outer.length + 1]? = some ⟨[] ++ ns, out'⟩ := by
      have := getElem?_snoc_self (l := outer ++ [top]) (x := (⟨[] ++ ns, out'⟩ : NFrame))
      simp
    have hld : (ns.getLast hne).depth = .ok (outer.length + 1) :=
      (hg'.depth (outer.length + 1) _ (ns.length - 1) _ hlastn (by
        rw [List.nil_append, ← List.getLast?_eq_getElem?, List.getLast?_eq_some_getLast hne])).1
    have hob : ∀ m ∈ out', ∃ (d : Nat) (f : NFrame) (i : Nat), (outer ++ [top])[d]? = some f ∧ f.acc[i]? = some m := by
      intro m hm
      obtain ⟨d, f, i, hd, hf, hi⟩ := hg'.outbound _ _ m hlastn hm
      rcases getElem?_snoc hf with ⟨-, hf⟩ | ⟨rfl, -⟩
      · exact ⟨d, f, i, hf, hi⟩
      · simp at hd
    obtain ⟨out, hao, hout'⟩ := addOutbound_ok hg hob hout
    have hdep : (ANode.subproof next' (ns.getLast hne) as out' ns.dropLast).depth = .ok outer.length := by
      rw [ANode.depth, hld]; rfl
    refine ⟨.subproof next' (ns.getLast hne) as out' ns.dropLast, out, next' + 1, ?_, hdep, hle, Nat.lt_succ_self _, hout', ?_⟩
    · rw [nodeOfCommand, hno]
      show (addOutbound _ _ _ >>= _) = _
      rw [hao]
      show (orPanic ([] ++ ns).getLast? >>= _) = _
      rw [List.nil_append, List.getLast?_eq_some_getLast hne]; rfl
    intro seen did todo stack cur hs ho hdid hl hc
    have hnd : next' ∉ did := fun h => by rcases hdid _ h with h | h <;> omega
    obtain ⟨seen', did', hr, hs', ho', hdid'⟩ := hw seen (next' :: did) ((.subproof next' (ns.getLast hne) as out' ns.dropLast, true) :: todo)
      (stack ++ [cur]) [] hs.push ho (fun a ha => by
        rcases List.mem_cons.1 ha with rfl | ha
        · exact .inr (Nat.le_refl _)
        · rcases hdid a ha with h | h
          · exact .inl h
          · exact .inr (by omega)) (by simp [hl]) rfl
    refine ⟨_, did', ?_, SeenAt.insert (hg.mono hle) hs'.pop (Nat.le_refl next'), ho'.insert (Nat.le_succ _) (Nat.lt_succ_self _), fun a ha => ?_⟩
    · refine .head (b := ⟨out'.reverse.map (·, false) ++ (.subproof next' (ns.getLast hne) as out' ns.dropLast, false) :: todo,
        stack ++ [cur], seen, next' :: did⟩) ?_ ?_
      · rw [LState.next]
        simp only [List.map_cons, List.map_nil, List.cons_append, List.nil_append]
        rw [if_neg (by simp [ANode.addr, ho.none hle])]
        rw [hdep]
        simp [bind, Except.bind, hl, hnd]
      refine .trans (LState.Reach.skip fun n hn => ?_) ?_
      · obtain ⟨d, f, i, hf, hi⟩ := hob n (List.mem_reverse.1 hn)
        rw [hs d f i n hf hi]; rfl
      refine .head (b := ⟨ns.map (·, false) ++ (.subproof next' (ns.getLast hne) as out' ns.dropLast, true) :: todo,
        stack ++ [cur] ++ [[]], seen, next' :: did⟩) ?_ ?_
      · rw [LState.next]
        simp only
        rw [if_neg (by simp [ANode.addr, ho.none hle])]
        rw [hdep]
        have : ns.map (·, false) = ns.dropLast.map (·, false) ++ [(ns.getLast hne, false)] := by
          conv_lhs => rw [← List.dropLast_append_getLast hne]
          simp
        rw [this]
        simp [bind, Except.bind, hl]
      refine .trans hr (.single ?_)
      rw [LState.next]
      simp only
      rw [if_neg (by simp)]
      simp only [List.nil_append]
      rw [show (stack ++ [cur] ++ [Command.eraseCtxL cs]).getLast? = some (Command.eraseCtxL cs) by simp]
      show (if _ then _ else _) = _
      rw [if_neg (by simp), if_neg (by rw [eraseCtxL_length]; omega)]
      rw [emit_ok (d := outer.length) (stack := stack) (cur := cur) hdep (by simp) hl]
      simp [ANode.addr, hc, Command.eraseCtx, bind, Except.bind]
    · rcases hdid' a ha with h | h
      · rcases List.mem_cons.1 h with rfl | h
        · exact .inr (by omega)
        · exact .inl h
      · exact .inr (by omega)
theorem commands_roundtrip (cs : List Command) (outer : List NFrame) (top : NFrame) (next : Nat)
    (hg : GoodFrames (outer ++ [top]) next) (hwf : Command.wfL cs = true)
    (hsc : Command.scopedL (outer.map fun f => f.acc.length) top.acc.length cs) (hlast : outer ≠ [] → 2 ≤ top.acc.length + cs.length) :
    ∃ ns out next', nodesOfCommands outer top next cs = .ok (⟨top.acc ++ ns, out⟩, next') ∧ ns.length = cs.length ∧ next ≤ next' ∧
      GoodFrames (outer ++ [⟨top.acc ++ ns, out⟩]) next' ∧
      Writes (outer ++ [top]) (outer ++ [⟨top.acc ++ ns, out⟩]) next next' ns (Command.eraseCtxL cs) outer.length top.acc.length := by
  match cs with
  | [] =>
    refine ⟨[], top.outbound, next, by rw [nodesOfCommands]; simp, rfl, Nat.le_refl _, by simpa using hg, ?_⟩
    intro seen did todo stack cur hs ho hdid hl hc
    exact ⟨seen, did, by simp [Command.eraseCtxL]; exact .refl, by simpa using hs, ho, fun a ha => .inl ha⟩
  | c :: cs =>
    rw [Command.wfL, Bool.and_eq_true] at hwf
    obtain ⟨n, out, next', hn, hd, hna, hna', ho, hw⟩ := command_roundtrip c outer top next cs.isEmpty hg hwf.1 hsc.1 (by
      intro h1 h2 h3
      have := hlast h1
      rw [h3, List.isEmpty_iff.1 h2] at this
      simp at this)
    obtain ⟨ns, out', next'', hns, hlen, hle, hg', hw'⟩ := commands_roundtrip cs outer ⟨top.acc ++ [n], out⟩ next'
      (hg.snoc hna hd hna' ho) hwf.2 (by simpa using hsc.2) (fun h => by have := hlast h; simp at this ⊢; omega)
    refine ⟨n :: ns, out', next'', ?_, by simp [hlen], by omega, by simpa using hg', ?_⟩
    · rw [nodesOfCommands, hn]
      show nodesOfCommands _ _ _ _ = _
      rw [hns]; simp
    intro seen did todo stack cur hs ho hdid hl hc
    obtain ⟨seen', did', hr, hs', ho', hdid'⟩ := hw seen did (ns.map (·, false) ++ todo) stack cur hs ho
      (fun a ha => by rcases hdid a ha with h | h <;> omega) hl hc
    obtain ⟨seen'', did'', hr', hs'', ho'', hdid''⟩ := hw' seen' did' todo stack (cur ++ [c.eraseCtx]) hs' ho'
      (fun a ha => by
        rcases hdid' a ha with h | h
        · rcases hdid a h with h | h <;> omega
        · omega) hl (by simp [hc])
    refine ⟨seen'', did'', .trans hr (by
      have e : cur ++ Command.eraseCtxL (c :: cs) = cur ++ [c.eraseCtx] ++ Command.eraseCtxL cs := by simp [Command.eraseCtxL]
      rw [e]; exact hr'), by simpa using hs'', ho'', fun a ha => ?_⟩
    rcases hdid'' a ha with h | h
    · rcases hdid' a h with h | h
      · exact .inl h
      · exact .inr (by omega)
    · exact .inr (by omega)
end

end Carcara
