import Verif.Lemmas.TermParserDef
import Verif.Lemmas.TermParserReader

/-!
# Sorts that the parser reads
-/

namespace Carcara
open PRes Reader

mutual
/-- A sort that uses declared sorts with the declared number of arguments, and the parameters `P` without arguments. -/
def Srt.Over (D : List (String × Nat)) (P : List String) : Srt → Prop
  | .bool => True
  | .int => True
  | .real => True
  | .string => True
  | .regLan => True
  | .rareList => False
  | .bv _ => True
  | .array i e => i.Over D P ∧ e.Over D P
  | .fn _ _ => False
  | .atom n as => (n ∈ P ∧ as = []) ∨ (n ∉ P ∧ D.lookup n = some as.length ∧ Srt.OverL D P as)
def Srt.OverL (D : List (String × Nat)) (P : List String) : List Srt → Prop
  | [] => True
  | s :: ss => s.Over D P ∧ Srt.OverL D P ss
end

theorem overL_iff {D : List (String × Nat)} {P : List String} : ∀ {ss : List Srt}, Srt.OverL D P ss ↔ ∀ s ∈ ss, s.Over D P
  | [] => by simp [Srt.OverL]
  | s :: ss => by simp [Srt.OverL, overL_iff]

mutual
/-- A sort with sorts in place of parameters. -/
def Srt.inst (θ : String → Option Srt) : Srt → Srt
  | .array i e => .array (i.inst θ) (e.inst θ)
  | .fn as r => .fn (Srt.instL θ as) (r.inst θ)
  | .atom n as => if as.isEmpty then (θ n).getD (.atom n []) else .atom n (Srt.instL θ as)
  | s => s
def Srt.instL (θ : String → Option Srt) : List Srt → List Srt
  | [] => []
  | s :: ss => s.inst θ :: Srt.instL θ ss
end

theorem instL_length {θ : String → Option Srt} : ∀ {ss : List Srt}, (Srt.instL θ ss).length = ss.length
  | [] => rfl
  | _ :: ss => by simp [Srt.instL, instL_length (ss := ss)]

mutual
theorem inst_none : ∀ s : Srt, s.inst (fun _ => none) = s
  | .array i e => by rw [Srt.inst, inst_none i, inst_none e]
  | .fn as r => by rw [Srt.inst, instL_none as, inst_none r]
  | .atom n [] => by simp [Srt.inst]
  | .atom n (a :: as) => by simp [Srt.inst, instL_none (a :: as)]
  | .bool => rfl
  | .int => rfl
  | .real => rfl
  | .string => rfl
  | .regLan => rfl
  | .rareList => rfl
  | .bv _ => rfl
theorem instL_none : ∀ ss : List Srt, Srt.instL (fun _ => none) ss = ss
  | [] => rfl
  | s :: ss => by rw [Srt.instL, inst_none s, instL_none ss]
end

/-- The map that a sort definition is applied with. -/
def Replaces (m : List (Srt × Srt)) (θ : String → Option Srt) : Prop :=
  (∀ s t, mapGet m s = some t → ∃ n, s = .atom n []) ∧ ∀ n, mapGet m (.atom n []) = θ n

theorem mapGet_none_of {m : List (Srt × Srt)} {θ : String → Option Srt} (h : Replaces m θ) {s : Srt} (hs : ∀ n, s ≠ .atom n []) :
    mapGet m s = none := by
  cases hm : mapGet m s
  · rfl
  · obtain ⟨n, e⟩ := h.1 _ _ hm
    exact absurd e (hs n)

mutual
theorem subst_eq_inst {m : List (Srt × Srt)} {θ : String → Option Srt} (h : Replaces m θ) : ∀ s : Srt, s.subst m = s.inst θ
  | .array i e => by
    have : mapGet m (.array i e) = none := mapGet_none_of h (by simp)
    rw [Srt.subst, Srt.inst, this, subst_eq_inst h i, subst_eq_inst h e]
    rfl
  | .fn as r => by
    have : mapGet m (.fn as r) = none := mapGet_none_of h (by simp)
    rw [Srt.subst, Srt.inst, this, substL_eq_inst h as, subst_eq_inst h r]
    rfl
  | .atom n [] => by
    rw [Srt.subst, Srt.inst, h.2]
    rfl
  | .atom n (a :: as) => by
    have : mapGet m (.atom n (a :: as)) = none := mapGet_none_of h (by simp)
    rw [Srt.subst, Srt.inst, this, substL_eq_inst h (a :: as)]
    rfl
  | .bool => by simp [Srt.subst, Srt.inst, mapGet_none_of h]
  | .int => by simp [Srt.subst, Srt.inst, mapGet_none_of h]
  | .real => by simp [Srt.subst, Srt.inst, mapGet_none_of h]
  | .string => by simp [Srt.subst, Srt.inst, mapGet_none_of h]
  | .regLan => by simp [Srt.subst, Srt.inst, mapGet_none_of h]
  | .rareList => by simp [Srt.subst, Srt.inst, mapGet_none_of h]
  | .bv w => by simp [Srt.subst, Srt.inst, mapGet_none_of h]
theorem substL_eq_inst {m : List (Srt × Srt)} {θ : String → Option Srt} (h : Replaces m θ) : ∀ ss : List Srt, Srt.substL m ss = Srt.instL θ ss
  | [] => rfl
  | s :: ss => by rw [Srt.substL, Srt.instL, subst_eq_inst h s, substL_eq_inst h ss]
end

/-- The sorts that a definition is applied to, by name. Of several parameters with the same name, the last one counts. -/
def sortArgs (ps : List String) (args : List Srt) (x : String) : Option Srt := (ps.zip args).reverse.lookup x

theorem replaces_foldl : ∀ (ps : List String) (args : List Srt) (m : List (Srt × Srt)) (θ : String → Option Srt), Replaces m θ →
    Replaces (((ps.map fun p => Srt.atom p []).zip args).foldl (fun m p => mapInsert m p.1 p.2) m) fun x => (sortArgs ps args x).or (θ x)
  | [], _, m, θ, h => by simpa [sortArgs] using h
  | _ :: _, [], m, θ, h => by simpa [sortArgs] using h
  | p :: ps, a :: args, m, θ, h => by
    have h' : Replaces (mapInsert m (.atom p []) a) fun x => if x = p then some a else θ x := by
      refine ⟨fun s t e => ?_, fun n => ?_⟩
      · rw [mapGet_insert] at e
        split at e
        · next hp => exact ⟨p, by first | exact hp | exact hp.symm⟩
        · exact h.1 _ _ e
      · rw [mapGet_insert, h.2]
        simp only [Srt.atom.injEq, and_true]
        by_cases e : n = p
        · simp [e]
        · simp [e, Ne.symm e]
    have := replaces_foldl ps args _ _ h'
    simp only [List.map_cons, List.zip_cons_cons, List.foldl_cons]
    refine ⟨this.1, fun n => (this.2 n).trans ?_⟩
    simp only [sortArgs, List.zip_cons_cons, List.reverse_cons, List.lookup_append, Option.or_assoc]
    congr 1
    simp only [List.lookup]
    by_cases e : n = p
    · simp [e]
    · have : (n == p) = false := by simpa using e
      simp [e, this]

theorem subst_params (ps : List String) (args : List Srt) (s : Srt) :
    s.subst (((ps.map fun p => Srt.atom p []).zip args).foldl (fun m p => mapInsert m p.1 p.2) []) = s.inst (sortArgs ps args) := by
  have h := replaces_foldl ps args [] (fun _ => none) ⟨fun _ _ h => (by cases h), fun _ => rfl⟩
  simp only [Option.or_none] at h
  exact subst_eq_inst h s

mutual
theorem over_inst {D : List (String × Nat)} {P : List String} {θ : String → Option Srt} (hθ : ∀ x ∈ P, ∃ s, θ x = some s ∧ s.Over D [])
    (hn : ∀ x ∉ P, θ x = none) : ∀ s : Srt, s.Over D P → (s.inst θ).Over D []
  | .array i e, h => ⟨over_inst hθ hn i h.1, over_inst hθ hn e h.2⟩
  | .fn as r, h => h.elim
  | .atom n [], h => by
    rcases h with ⟨h, -⟩ | ⟨h1, h2, -⟩
    · obtain ⟨s, e, hs⟩ := hθ n h
      simpa [Srt.inst, e] using hs
    · simp only [Srt.inst, hn n h1, List.isEmpty_nil, if_true, Option.getD_none]
      exact .inr ⟨by simp, h2, trivial⟩
  | .atom n (a :: as), h => by
    rcases h with ⟨-, h⟩ | ⟨h1, h2, h3⟩
    · cases h
    · simp only [Srt.inst, List.isEmpty_cons, Bool.false_eq_true, if_false]
      refine .inr ⟨by simp, ?_, overL_inst hθ hn (a :: as) h3⟩
      rw [instL_length, h2]
  | .bool, h => h
  | .int, h => h
  | .real, h => h
  | .string, h => h
  | .regLan, h => h
  | .rareList, h => h
  | .bv w, h => h
theorem overL_inst {D : List (String × Nat)} {P : List String} {θ : String → Option Srt} (hθ : ∀ x ∈ P, ∃ s, θ x = some s ∧ s.Over D [])
    (hn : ∀ x ∉ P, θ x = none) : ∀ ss : List Srt, Srt.OverL D P ss → Srt.OverL D [] (Srt.instL θ ss)
  | [], _ => trivial
  | s :: ss, h => ⟨over_inst hθ hn s h.1, overL_inst hθ hn ss h.2⟩
end

theorem lookup_isSome_of_mem {β : Type} {x : String} : ∀ {m : List (String × β)}, x ∈ m.map (·.1) → ∃ b, m.lookup x = some b ∧ (x, b) ∈ m
  | [], h => (by cases h)
  | (k, v) :: m, h => by
    rw [List.lookup_cons]
    split
    · next e => exact ⟨v, rfl, by simp [beq_iff_eq.1 e]⟩
    · next e =>
      have : x ≠ k := by simpa using e
      obtain ⟨b, h1, h2⟩ := lookup_isSome_of_mem (m := m) (by simpa [this] using h)
      exact ⟨b, h1, by simp [h2]⟩

theorem lookup_none_of_not_mem {β : Type} {x : String} : ∀ {m : List (String × β)}, x ∉ m.map (·.1) → m.lookup x = none
  | [], _ => rfl
  | (k, v) :: m, h => by
    simp only [List.map_cons, List.mem_cons, not_or] at h
    rw [List.lookup_cons]
    split
    · next e => exact absurd (beq_iff_eq.1 e) h.1
    · exact lookup_none_of_not_mem h.2

/-- The definitions of sorts use declared sorts and their parameters. -/
def SortsOK (E : PEnv) : Prop := ∀ p ∈ E.sortDefs, p.2.body.Over E.sortDecls p.2.params

theorem makeSort_over {E : PEnv} (hE : SortsOK E) {name : String} {args : List Srt} {s : Srt} (ha : ∀ a ∈ args, a.Over E.sortDecls [])
    (h : makeSort E name args = .ok s) : s.Over E.sortDecls [] := by
  unfold makeSort at h
  split at h
  · cases h
  iterate 5
    split at h
    · cases h
      trivial
  split at h
  · cases h
  split at h
  · split at h
    · cases h
      exact ⟨ha _ (by simp), ha _ (by simp)⟩
    · cases h
  split at h
  · next d hd =>
    simp only [pbind_ok, need_ok, exists_unit] at h
    obtain ⟨hl, h⟩ := h
    have hm : d.body.Over E.sortDecls d.params := hE _ (mem_of_lookup_eq hd)
    split at h
    · next he =>
      cases h
      rw [List.isEmpty_iff.1 he] at hm
      exact hm
    · cases h
      rw [subst_params]
      refine over_inst (fun x hx => ?_) (fun x hx => ?_) _ hm
      · obtain ⟨b, h1, h2⟩ := lookup_isSome_of_mem (x := x) (m := (d.params.zip args).reverse)
          (by rw [List.map_reverse, List.mem_reverse, List.map_fst_zip (by omega)]; exact hx)
        exact ⟨b, h1, ha _ (List.of_mem_zip (List.mem_reverse.1 h2)).2⟩
      · exact lookup_none_of_not_mem (by rw [List.map_reverse, List.mem_reverse, List.map_fst_zip (by omega)]; exact hx)
  · split at h
    · next ar hd =>
      simp only [pbind_ok, need_ok, exists_unit, Except.ok.injEq] at h
      obtain ⟨hl, rfl⟩ := h
      exact .inr ⟨by simp, by rw [hd, hl], overL_iff.2 ha⟩
    · cases h

theorem makeIndexedSort_over {D : List (String × Nat)} {name : String} {args : List Term} {s : Srt} (h : makeIndexedSort name args = .ok s) :
    s.Over D [] := by
  unfold makeIndexedSort at h
  split at h
  · split at h
    · split at h
      · simp only [pbind_ok, Except.ok.injEq] at h
        obtain ⟨w, -, rfl⟩ := h
        trivial
      · cases h
    · cases h
  · cases h

theorem parseSort_over {E : PEnv} (hE : SortsOK E) : ∀ (n : Nat),
    (∀ st s st', parseSort n E st = .ok (s, st') → s.Over E.sortDecls []) ∧
      ∀ st ss st', parseSorts n E st = .ok (ss, st') → ∀ s ∈ ss, s.Over E.sortDecls []
  | 0 => ⟨fun _ _ _ h => (by cases h), fun _ _ _ h => (by cases h)⟩
  | n + 1 => by
    have ih := parseSort_over hE n
    refine ⟨fun st s st' h => ?_, fun st ss st' h => ?_⟩
    · unfold parseSort at h
      obtain ⟨tok, st1, h1, k1⟩ := reader_bind_ok.1 h
      split at k1
      · exact makeSort_over hE (fun _ h => (by cases h)) (reader_lift_ok.1 k1).1
      · obtain ⟨cur, st2, h2, k2⟩ := reader_bind_ok.1 k1
        split at k2
        · obtain ⟨_, st3, h3, k3⟩ := reader_bind_ok.1 k2
          obtain ⟨name, st4, h4, k4⟩ := reader_bind_ok.1 k3
          obtain ⟨args, st5, h5, k5⟩ := reader_bind_ok.1 k4
          obtain ⟨args', st6, h6, k6⟩ := reader_bind_ok.1 k5
          exact makeIndexedSort_over (reader_lift_ok.1 k6).1
        · obtain ⟨name, st3, h3, k3⟩ := reader_bind_ok.1 k2
          obtain ⟨args, st4, h4, k4⟩ := reader_bind_ok.1 k3
          obtain ⟨args', st5, h5, k5⟩ := reader_bind_ok.1 k4
          obtain ⟨rfl, -, -⟩ := nonEmpty_inv h5
          exact makeSort_over hE (ih.2 _ _ _ h4) (reader_lift_ok.1 k5).1
      · cases k1
    · unfold parseSorts at h
      obtain ⟨cur, st1, h1, k1⟩ := reader_bind_ok.1 h
      split at k1
      · obtain ⟨_, st2, h2, k2⟩ := reader_bind_ok.1 k1
        cases k2
        intro s hs
        cases hs
      · obtain ⟨s, st2, h2, k2⟩ := reader_bind_ok.1 k1
        obtain ⟨ss', st3, h3, k3⟩ := reader_bind_ok.1 k2
        cases k3
        intro r hr
        rcases List.mem_cons.1 hr with rfl | hr
        · exact ih.1 _ _ _ h2
        · exact ih.2 _ _ _ h3 r hr

end Carcara
