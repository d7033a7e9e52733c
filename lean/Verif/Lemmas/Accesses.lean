import Verif.Spec.Accesses
import Verif.Lemmas.Steps
import Verif.Props.Imports
/-
The files read while imports are followed.
-/
set_option autoImplicit false

namespace Qlc
open Spec

theorem accesses_bind {α β : Type} (o : Ops α) (f : α → Ops β) :
    ∀ w, accesses w (o.bind f) = accesses w o ++ accesses (o.run w).2 (f (o.run w).1) := by
  induction o with
  | ret a => intro w; rfl
  | read p k ih => intro w; simp only [Ops.bind, accesses, Ops.run, ih, List.cons_append]
  | write p c k ih => intro w; simp only [Ops.bind, accesses, Ops.run, ih, List.cons_append]

/-- The chains that start with one of the given import lines. -/
def LeadsIn (w : World) (cfg : CompileConfig) (dir : Path) (ils : List ImportLine) (is : List Nat)
    (q : Path) : Prop :=
  ∃ i rest il p, is = i :: rest ∧ ils[i]? = some il ∧ getFilePathOfFragment cfg il.after dir = some p ∧
    ((rest = [] ∧ q = p) ∨ ∃ c, w.read p = .ok c ∧ Leads w cfg p c rest q)

theorem leads_iff (w : World) (cfg : CompileConfig) (file : Path) (contents : String) (is : List Nat)
    (q : Path) : Leads w cfg file contents is q ↔ LeadsIn w cfg file.pop (importsOf contents) is q := by
  constructor
  · intro h
    cases h with
    | one h1 h2 => exact ⟨_, _, _, _, rfl, h1, h2, .inl ⟨rfl, rfl⟩⟩
    | more h1 h2 h3 h4 => exact ⟨_, _, _, _, rfl, h1, h2, .inr ⟨_, h3, h4⟩⟩
  · rintro ⟨i, rest, il, p, rfl, h1, h2, h3 | ⟨c, h3, h4⟩⟩
    · obtain ⟨rfl, rfl⟩ := h3
      exact .one h1 h2
    · exact .more h1 h2 h3 h4

theorem leads_ne_nil {w : World} {cfg : CompileConfig} {file : Path} {contents : String} {q : Path}
    (h : Leads w cfg file contents [] q) : False := by cases h

/-- All chains that start with one of the given import lines, in order. -/
def AllIn (w : World) (cfg : CompileConfig) (dir : Path) (ils : List ImportLine)
    (cs : List (List Nat × Path)) : Prop :=
  cs.Pairwise (fun a b => List.Lex (· < ·) a.1 b.1) ∧
    ∀ is q, (is, q) ∈ cs ↔ LeadsIn w cfg dir ils is q

def shiftHead : List Nat → List Nat
  | [] => []
  | i :: r => (i + 1) :: r

theorem allIn_nil (w : World) (cfg : CompileConfig) (dir : Path) : AllIn w cfg dir [] [] := by
  refine ⟨List.Pairwise.nil, fun is q => ⟨fun h => (List.not_mem_nil h).elim, ?_⟩⟩
  rintro ⟨i, rest, il, p, _, h, _⟩
  simp at h

/-- Putting the chains through the first line before the others. -/
theorem allIn_cons {w : World} {cfg : CompileConfig} {dir : Path} {il : ImportLine}
    {ils : List ImportLine} {p : Path} {sub cs : List (List Nat × Path)}
    (ht : getFilePathOfFragment cfg il.after dir = some p)
    (hsub : sub.Pairwise (fun a b => List.Lex (· < ·) a.1 b.1) ∧
      ∀ is q, (is, q) ∈ sub ↔ ∃ c, w.read p = .ok c ∧ Leads w cfg p c is q)
    (hcs : AllIn w cfg dir ils cs) :
    AllIn w cfg dir (il :: ils)
      (([0], p) :: (sub.map (fun e => (0 :: e.1, e.2)) ++ cs.map (fun e => (shiftHead e.1, e.2)))) := by
  have hne : ∀ e ∈ cs, ∃ i r, e.1 = i :: r := by
    rintro ⟨is, q⟩ he
    obtain ⟨i, rest, _, _, h, _⟩ := (hcs.2 is q).1 he
    exact ⟨i, rest, h⟩
  have hne' : ∀ e ∈ sub, ∃ i r, e.1 = i :: r := by
    rintro ⟨is, q⟩ he
    obtain ⟨c, _, h⟩ := (hsub.2 is q).1 he
    cases is with
    | nil => exact (leads_ne_nil h).elim
    | cons i r => exact ⟨i, r, rfl⟩
  refine ⟨?_, ?_⟩
  · rw [List.pairwise_cons]
    refine ⟨?_, ?_⟩
    · intro e he
      rcases List.mem_append.1 he with h | h
      · obtain ⟨e', he', rfl⟩ := List.mem_map.1 h
        obtain ⟨i, r, hr⟩ := hne' e' he'
        rw [hr]
        exact .cons .nil
      · obtain ⟨e', he', rfl⟩ := List.mem_map.1 h
        obtain ⟨i, r, hr⟩ := hne e' he'
        rw [hr]
        exact .rel (Nat.succ_pos i)
    · rw [List.pairwise_append]
      refine ⟨?_, ?_, ?_⟩
      · rw [List.pairwise_map]
        exact hsub.1.imp (fun h => .cons h)
      · rw [List.pairwise_map]
        refine List.Pairwise.imp_of_mem ?_ hcs.1
        intro a b ha hb hab
        obtain ⟨i, r, hi⟩ := hne a ha
        obtain ⟨j, s, hj⟩ := hne b hb
        rw [hi, hj] at hab ⊢
        cases hab with
        | cons h => exact .cons h
        | rel h => exact .rel (Nat.succ_lt_succ h)
      · intro a ha b hb
        obtain ⟨a', ha', rfl⟩ := List.mem_map.1 ha
        obtain ⟨b', hb', rfl⟩ := List.mem_map.1 hb
        obtain ⟨j, s, hj⟩ := hne b' hb'
        rw [hj]
        exact .rel (Nat.succ_pos j)
  · intro is q
    constructor
    · intro h
      rcases List.mem_cons.1 h with h | h
      · cases h
        exact ⟨0, [], il, p, rfl, rfl, ht, .inl ⟨rfl, rfl⟩⟩
      · rcases List.mem_append.1 h with h | h
        · obtain ⟨⟨r, q'⟩, he, heq⟩ := List.mem_map.1 h
          cases heq
          exact ⟨0, r, il, p, rfl, rfl, ht, .inr ((hsub.2 _ _).1 he)⟩
        · obtain ⟨⟨r, q'⟩, he, heq⟩ := List.mem_map.1 h
          cases heq
          obtain ⟨i, rest, il', p', rfl, h1, h2, h3⟩ := (hcs.2 _ _).1 he
          exact ⟨i + 1, rest, il', p', rfl, h1, h2, h3⟩
    · rintro ⟨i, rest, il', p', rfl, h1, h2, h3⟩
      cases i with
      | zero =>
        simp only [List.getElem?_cons_zero, Option.some.injEq] at h1
        subst h1
        rw [ht] at h2
        cases h2
        rcases h3 with ⟨rfl, rfl⟩ | h3
        · exact List.mem_cons_self
        · refine List.mem_cons_of_mem _ (List.mem_append_left _ ?_)
          exact List.mem_map.2 ⟨(rest, q), (hsub.2 _ _).2 h3, rfl⟩
      | succ i =>
        rw [List.getElem?_cons_succ] at h1
        refine List.mem_cons_of_mem _ (List.mem_append_right _ ?_)
        exact List.mem_map.2 ⟨(i :: rest, q), (hcs.2 _ _).2 ⟨i, rest, il', p', rfl, h1, h2, h3⟩, rfl⟩

theorem importLoop_accesses (w : World) (cfg : CompileConfig) (file : Path) (n : Nat)
    (hrec : ∀ p c s s', addImported w cfg n p c s = some (.done s') →
      ∃ cs, AllChains w cfg p c cs ∧
        accesses w (addImportedOps cfg n p c s) = cs.map (fun e => .read e.2)) :
    ∀ (ls : List (List Char)) (idx : Nat) (s s' : ImportSt),
      importLoop w cfg file file.pop (addImported w cfg n) idx ls s = some (.done s') →
      ∃ cs, AllIn w cfg file.pop
          (((commentBlock ls).zipIdx (idx + 1)).filterMap (fun e => importLine? e.1 e.2)) cs ∧
        accesses w (importLoopOps cfg file file.pop (addImportedOps cfg n) idx ls s) =
          cs.map (fun e => .read e.2)
  | [], idx, s, s', _ => ⟨[], by simpa [commentBlock] using allIn_nil w cfg file.pop, rfl⟩
  | l :: ls, idx, s, s', h => by
    have hk := lineKind_spec l (idx + 1)
    have ih := importLoop_accesses w cfg file n hrec ls (idx + 1)
    simp only [importLoop] at h
    simp only [importLoopOps, commentBlock, List.takeWhile_cons]
    cases hl : lineKind l with
    | stop =>
      simp only [hl, lineKindMeant] at hk
      exact ⟨[], by simpa [hk] using allIn_nil w cfg file.pop, rfl⟩
    | skip =>
      simp only [hl, lineKindMeant] at hk
      rw [hl] at h
      simp only [hk.1, if_true, List.zipIdx_cons, List.filterMap_cons, hk.2]
      exact ih s s' h
    | «import» after =>
      simp only [hl, lineKindMeant] at hk
      rw [hl] at h
      simp only [hk.1, if_true, List.zipIdx_cons, List.filterMap_cons, hk.2]
      cases hf : getFilePathOfFragment cfg after file.pop with
      | none => simp [hf] at h
      | some q =>
        simp only [hf, readGraphqlFile] at h
        simp only [accesses]
        cases hr : w.read q with
        | error e =>
          rw [hr] at h
          obtain ⟨cs, hcs, hacc⟩ := ih _ s' h
          refine ⟨_, allIn_cons (sub := []) hf ⟨List.Pairwise.nil, fun is q' => ⟨fun h =>
            (List.not_mem_nil h).elim, ?_⟩⟩ hcs, ?_⟩
          · rintro ⟨c, hc, _⟩
            rw [hr] at hc; cases hc
          · simp only
            rw [hacc]
            simp [Function.comp_def]
        | ok c =>
          rw [hr] at h
          simp only at h ⊢
          cases hrs : addImported w cfg n q c s with
          | none => simp [hrs] at h
          | some r =>
            cases r with
            | panic => simp [hrs] at h
            | done s1 =>
              rw [hrs] at h
              obtain ⟨sub, hsub, hsubacc⟩ := hrec q c s s1 hrs
              obtain ⟨cs, hcs, hacc⟩ := ih _ s' h
              refine ⟨_, allIn_cons (sub := sub) hf ⟨hsub.1, fun is q' => ?_⟩ hcs, ?_⟩
              · rw [hsub.2]
                constructor
                · exact fun h => ⟨c, hr, h⟩
                · rintro ⟨c', hc', h⟩
                  rw [hr] at hc'
                  cases hc'
                  exact h
              · rw [accesses_bind, addImportedOps_run, hrs, hsubacc]
                simp only
                rw [hacc]
                simp [Function.comp_def]

theorem addImported_accesses (w : World) (cfg : CompileConfig) : ∀ (n : Nat) (p : Path) (c : String)
    (s s' : ImportSt), addImported w cfg n p c s = some (.done s') →
      ∃ cs, AllChains w cfg p c cs ∧
        accesses w (addImportedOps cfg n p c s) = cs.map (fun e => .read e.2)
  | 0, _, _, _, _, h => by simp [addImported] at h
  | n + 1, p, c, s, s', h => by
    obtain ⟨cs, hcs, hacc⟩ := importLoop_accesses w cfg p n (addImported_accesses w cfg n)
      (linesC c.toList) 0 s s' h
    refine ⟨cs, ⟨hcs.1, fun is q => ?_⟩, hacc⟩
    rw [leads_iff]
    exact hcs.2 is q

end Qlc
