import Verif.Spec.Editing
import Verif.Lemmas.FinePool
import Verif.Props.Imports
import Verif.Props.EndToEnd
import Verif.Props.FineRace
import Mathlib.Data.List.Induction
/-
C112: runs during which other programs change files.
-/
set_option autoImplicit false

namespace Qlc
open Spec

section
variable {α β : Type}

theorem talks_ret {a : α} {tr : List Exchange} {o : Ops α} (h : Talks (.ret a) tr o) : tr = [] ∧ o = .ret a := by
  generalize e : Ops.ret a = x at h
  cases h with
  | here => exact ⟨rfl, rfl⟩
  | read => cases e
  | write => cases e

theorem talks_read {p : Path} {k : Except String String → Ops α} {tr : List Exchange} {o : Ops α}
    (h : Talks (.read p k) tr o) : (tr = [] ∧ o = .read p k) ∨ ∃ r tr', tr = .read p r :: tr' ∧ Talks (k r) tr' o := by
  generalize e : Ops.read p k = x at h
  cases h with
  | here => exact .inl ⟨rfl, rfl⟩
  | read h => injection e with e1 e2; subst e1; subst e2; exact .inr ⟨_, _, rfl, h⟩
  | write => cases e

theorem talks_write {p : Path} {c : String} {k : Option String → Ops α} {tr : List Exchange} {o : Ops α}
    (h : Talks (.write p c k) tr o) :
    (tr = [] ∧ o = .write p c k) ∨ ∃ e tr', tr = .write p c e :: tr' ∧ Talks (k e) tr' o := by
  generalize e : Ops.write p c k = x at h
  cases h with
  | here => exact .inl ⟨rfl, rfl⟩
  | read => cases e
  | write h => injection e with e1 e2 e3; subst e1; subst e2; subst e3; exact .inr ⟨_, _, rfl, h⟩

theorem talks_bind {a : Ops α} {f : α → Ops β} {tr : List Exchange} {o : Ops β} (h : Talks (a.bind f) tr o) :
    (∃ a', Talks a tr a' ∧ (∀ v, a' ≠ .ret v) ∧ o = a'.bind f) ∨
    ∃ tr1 tr2 v, tr = tr1 ++ tr2 ∧ Talks a tr1 (.ret v) ∧ Talks (f v) tr2 o := by
  induction a generalizing tr with
  | ret v => exact .inr ⟨[], tr, v, rfl, .here _, h⟩
  | read p k ih =>
    rcases talks_read h with ⟨rfl, rfl⟩ | ⟨r, tr', rfl, h'⟩
    · exact .inl ⟨_, .here _, (fun _ h => by cases h), rfl⟩
    · rcases ih r h' with ⟨a', h1, hn, rfl⟩ | ⟨tr1, tr2, v, rfl, h1, h2⟩
      · exact .inl ⟨a', .read h1, hn, rfl⟩
      · exact .inr ⟨_ :: tr1, tr2, v, rfl, .read h1, h2⟩
  | write p c k ih =>
    rcases talks_write h with ⟨rfl, rfl⟩ | ⟨e, tr', rfl, h'⟩
    · exact .inl ⟨_, .here _, (fun _ h => by cases h), rfl⟩
    · rcases ih e h' with ⟨a', h1, hn, rfl⟩ | ⟨tr1, tr2, v, rfl, h1, h2⟩
      · exact .inl ⟨a', .write h1, hn, rfl⟩
      · exact .inr ⟨_ :: tr1, tr2, v, rfl, .write h1, h2⟩

theorem talks_snoc {a b c : Ops α} {tr : List Exchange} {x : Exchange} (h : Talks a tr b) (h' : Talks b [x] c) :
    Talks a (tr ++ [x]) c := by
  induction h with
  | here => exact h'
  | read _ ih => exact .read (ih h')
  | write _ ih => exact .write (ih h')

/-- The exchange is a read. -/
def isRead : Exchange → Prop
  | .read _ _ => True
  | .write _ _ _ => False

/-- The position is not a write. -/
def notWrite : Ops α → Prop
  | .write _ _ _ => False
  | _ => True

theorem notWrite_bind {a : Ops α} {f : α → Ops β} (h : notWrite a) (hr : ∀ v, a ≠ .ret v) : notWrite (a.bind f) := by
  cases a with
  | ret v => exact absurd rfl (hr v)
  | read => trivial
  | write => cases h

end

/-! ### Imports -/

section
variable {cfg : CompileConfig}

/-- What the imports loop does, whatever the answers: it reads only, and what it returns holds only what was there
before or was read. -/
def LoopOk (s : ImportSt) (o : Ops (Option (PanicOr ImportSt))) : Prop :=
  ∀ tr o', Talks o tr o' → (∀ x ∈ tr, isRead x) ∧ notWrite o' ∧
    ∀ s', o' = .ret (some (.done s')) → ∀ e ∈ s'.imports, e ∈ s.imports ∨ .read e.1 (.ok e.2.1) ∈ tr

theorem mem_insert {m : AMap Path (String × Location)} {k : Path} {v : String × Location} {e : ImportedFile}
    (h : e ∈ AMap.insert m k v) : e ∈ m ∨ e = (k, v) := by
  induction m with
  | nil => right; simpa [AMap.insert] using h
  | cons x m ih =>
    unfold AMap.insert at h
    split at h
    · rename_i hk
      rcases List.mem_cons.1 h with h | h
      · exact .inr (by rw [h, hk])
      · exact .inl (List.mem_cons_of_mem _ h)
    · rcases List.mem_cons.1 h with h | h
      · exact .inl (h ▸ List.mem_cons_self ..)
      · rcases ih h with h | h
        · exact .inl (List.mem_cons_of_mem _ h)
        · exact .inr h

theorem loopOk_ret {s : ImportSt} {r : Option (PanicOr ImportSt)} (h : ∀ s', r = some (.done s') → s' = s) :
    LoopOk s (.ret r) := by
  intro tr o' ht
  obtain ⟨rfl, rfl⟩ := talks_ret ht
  refine ⟨by simp, trivial, ?_⟩
  intro s' e x hx
  injection e with e
  rw [h s' e] at hx
  exact .inl hx

theorem importLoop_ok (file dir : Path) (rec : Path → String → ImportSt → Ops (Option (PanicOr ImportSt)))
    (hrec : ∀ p c s, LoopOk s (rec p c s)) (lines : List (List Char)) :
    ∀ (idx : Nat) (s : ImportSt), LoopOk s (importLoopOps cfg file dir rec idx lines s) := by
  induction lines with
  | nil =>
    intro idx s
    rw [importLoopOps]
    exact loopOk_ret (fun s' h => by injection h with h; injection h with h; exact h.symm)
  | cons line rest ih =>
    intro idx s
    rw [importLoopOps]
    cases lineKind line with
    | skip => exact ih _ s
    | stop => exact loopOk_ret (fun s' h => by injection h with h; injection h with h; exact h.symm)
    | «import» after =>
      simp only
      cases getFilePathOfFragment cfg after dir with
      | none => exact loopOk_ret (fun s' h => by injection h with h; cases h)
      | some q =>
        simp only
        intro tr o' ht
        rcases talks_read ht with ⟨rfl, rfl⟩ | ⟨r, tr', rfl, ht'⟩
        · exact ⟨by simp, trivial, fun s' h => by cases h⟩
        · cases r with
          | error e =>
            obtain ⟨h1, h2, h3⟩ := ih _ _ _ _ ht'
            refine ⟨?_, h2, ?_⟩
            · intro x hx
              rcases List.mem_cons.1 hx with rfl | hx
              · trivial
              · exact h1 x hx
            · intro s' hs' x hx
              rcases h3 s' hs' x hx with h | h
              · exact .inl h
              · exact .inr (List.mem_cons_of_mem _ h)
          | ok contents =>
            rcases talks_bind ht' with ⟨a', h1, hn, rfl⟩ | ⟨tr1, tr2, v, rfl, h1, h2⟩
            · obtain ⟨b1, b2, b3⟩ := hrec _ _ _ _ _ h1
              refine ⟨?_, notWrite_bind b2 hn, fun s' h => ?_⟩
              · intro x hx
                rcases List.mem_cons.1 hx with rfl | hx
                · trivial
                · exact b1 x hx
              · cases a' with
                | ret v => exact absurd rfl (hn v)
                | read => cases h
                | write => cases h
            · obtain ⟨b1, _, b3⟩ := hrec _ _ _ _ _ h1
              have hread : ∀ {tr2}, (∀ x ∈ tr2, isRead x) → ∀ x ∈ Exchange.read q (.ok contents) :: (tr1 ++ tr2),
                  isRead x := by
                intro tr2 h2 x hx
                rcases List.mem_cons.1 hx with rfl | hx
                · trivial
                · rcases List.mem_append.1 hx with hx | hx
                  · exact b1 x hx
                  · exact h2 x hx
              have hstop : ∀ r, (∀ s', r ≠ some (.done s')) → Talks (.ret r) tr2 o' →
                  (∀ x ∈ Exchange.read q (.ok contents) :: (tr1 ++ tr2), isRead x) ∧ notWrite o' ∧
                  ∀ s', o' = .ret (some (.done s')) → ∀ e ∈ s'.imports, e ∈ s.imports ∨
                    .read e.1 (.ok e.2.1) ∈ Exchange.read q (.ok contents) :: (tr1 ++ tr2) := by
                intro r hr ht
                obtain ⟨rfl, rfl⟩ := talks_ret ht
                refine ⟨hread (by simp), trivial, fun s' h => ?_⟩
                injection h with h
                exact absurd h (hr s')
              cases v with
              | none => exact hstop _ (fun _ h => by cases h) h2
              | some v =>
                cases v with
                | panic => exact hstop _ (fun _ h => by injection h with h; cases h) h2
                | done s1 =>
                  obtain ⟨c1, c2, c3⟩ := ih _ _ _ _ h2
                  refine ⟨hread c1, c2, fun s' hs' x hx => ?_⟩
                  rcases c3 s' hs' x hx with h | h
                  · rcases mem_insert h with h | rfl
                    · rcases b3 s1 rfl x h with h | h
                      · exact .inl h
                      · exact .inr (List.mem_cons_of_mem _ (List.mem_append_left _ h))
                    · exact .inr (List.mem_cons_self ..)
                  · exact .inr (List.mem_cons_of_mem _ (List.mem_append_right _ h))

theorem addImported_ok : ∀ (n : Nat) (p : Path) (c : String) (s : ImportSt), LoopOk s (addImportedOps cfg n p c s)
  | 0 => fun _ _ s => loopOk_ret (fun s' h => by cases h)
  | n + 1 => fun p c s => importLoop_ok p p.pop (addImportedOps cfg n) (addImported_ok n) _ 0 s

end

/-! ### One document -/

section
variable {ω : Hash} {fuel : Nat} {ext : Ext} {cfg : CompileConfig} {schema : Schema} {p : Path}

theorem parseGraphqlFile_ok {contents : String} {d : Definition} (h : parseGraphqlFile ext contents p = .ok d) :
    ext.parse contents = .ok [d] := by
  unfold parseGraphqlFile at h
  split at h
  · cases h
  · cases h
  · rename_i e; injection h with h; rw [e, h]
  · cases h

/-- What compiling a document says to the file system, whatever the answers. -/
theorem compileOps_talks {tr : List Exchange} {o : Ops FileOutcome}
    (h : Talks (compileOps ω fuel ext cfg schema p) tr o) :
    (∀ q text k, o = .write q text k → q = outputPath p ∧ (∀ x ∈ tr, isRead x) ∧
      GeneratedFrom ω fuel ext cfg schema p tr text ∧ ∀ e, ∃ out, k e = .ret out) ∧
    (∀ q text e, .write q text e ∈ tr → q = outputPath p ∧ ∃ before out, tr = before ++ [.write q text e] ∧
      (∀ x ∈ before, isRead x) ∧ GeneratedFrom ω fuel ext cfg schema p before text ∧ o = .ret out) := by
  have hquiet : ∀ {tr : List Exchange} {o : Ops FileOutcome}, (∀ x ∈ tr, isRead x) → notWrite o →
      (∀ q text k, o = .write q text k → q = outputPath p ∧ (∀ x ∈ tr, isRead x) ∧
        GeneratedFrom ω fuel ext cfg schema p tr text ∧ ∀ e, ∃ out, k e = .ret out) ∧
      (∀ q text e, .write q text e ∈ tr → q = outputPath p ∧ ∃ before out, tr = before ++ [.write q text e] ∧
        (∀ x ∈ before, isRead x) ∧ GeneratedFrom ω fuel ext cfg schema p before text ∧ o = .ret out) := by
    intro tr o h1 h2
    refine ⟨(fun q text k e => by subst e; cases h2), fun q text e h => ?_⟩
    cases h1 _ h
  unfold compileOps at h
  rcases talks_read h with ⟨rfl, rfl⟩ | ⟨r, tr', rfl, h'⟩
  · exact hquiet (by simp) trivial
  have hone : ∀ x ∈ [Exchange.read p r], isRead x := by intro x hx; obtain rfl := List.mem_singleton.1 hx; trivial
  have hret : ∀ {a : FileOutcome} {tr1 tr2 : List Exchange} {o : Ops FileOutcome}, (∀ x ∈ tr1, isRead x) →
      Talks (.ret a) tr2 o → (∀ x ∈ Exchange.read p r :: (tr1 ++ tr2), isRead x) ∧ notWrite o := by
    intro a tr1 tr2 o h1 h2
    obtain ⟨rfl, rfl⟩ := talks_ret h2
    refine ⟨fun x hx => ?_, trivial⟩
    rw [List.append_nil] at hx
    rcases List.mem_cons.1 hx with rfl | hx
    · trivial
    · exact h1 x hx
  cases r with
  | error e =>
    obtain ⟨a, b⟩ := hret (tr1 := []) (by simp) h'
    exact hquiet a b
  | ok contents =>
    simp only at h'
    cases hp : parseGraphqlFile ext contents p with
    | error m =>
      rw [hp] at h'
      obtain ⟨a, b⟩ := hret (tr1 := []) (by simp) h'
      exact hquiet a b
    | ok d =>
      rw [hp] at h'
      rcases talks_bind h' with ⟨a', h1, hn, rfl⟩ | ⟨tr1, tr2, v, rfl, h1, h2⟩
      · obtain ⟨b1, b2, _⟩ := addImported_ok _ _ _ _ _ _ h1
        refine hquiet ?_ (notWrite_bind b2 hn)
        intro x hx
        rcases List.mem_cons.1 hx with rfl | hx
        · trivial
        · exact b1 x hx
      · obtain ⟨b1, _, b3⟩ := addImported_ok _ _ _ _ _ _ h1
        cases v with
        | none => obtain ⟨a, b⟩ := hret b1 h2; exact hquiet a b
        | some v =>
          cases v with
          | panic => obtain ⟨a, b⟩ := hret b1 h2; exact hquiet a b
          | done st =>
            simp only at h2
            cases hc : Operation.compile ω fuel ⟨schema, cfg.showDeprecationWarnings,
                (parseForeignFragments ω ext p st.imports st.messages).1⟩ d with
            | none => rw [hc] at h2; obtain ⟨a, b⟩ := hret b1 h2; exact hquiet a b
            | some r =>
              obtain ⟨r, ws⟩ := r
              rw [hc] at h2
              cases r with
              | error es => obtain ⟨a, b⟩ := hret b1 h2; exact hquiet a b
              | ok op =>
                simp only at h2
                cases hi : compileIr ω op cfg.toTsConfig schema with
                | error e => rw [hi] at h2; obtain ⟨a, b⟩ := hret b1 h2; exact hquiet a b
                | ok c =>
                  rw [hi] at h2
                  have G : GeneratedFrom ω fuel ext cfg schema p (.read p (.ok contents) :: tr1) c.contents := by
                    refine ⟨contents, d, _, op, ws, c, rfl, parseGraphqlFile_ok hp, ?_, hc, hi, rfl⟩
                    intro n f hf
                    obtain ⟨e1, e, he, e2⟩ := (C39_scope_and_errors ω ext p st.imports st.messages).1 n f hf
                    refine ⟨e1, e.1, e.2.1, ?_, e2⟩
                    rcases b3 st rfl e he with h | h
                    · cases h
                    · exact List.mem_cons_of_mem _ h
                  have hrd : ∀ x ∈ Exchange.read p (.ok contents) :: tr1, isRead x := by
                    intro x hx
                    rcases List.mem_cons.1 hx with rfl | hx
                    · trivial
                    · exact b1 x hx
                  rcases talks_write h2 with ⟨rfl, rfl⟩ | ⟨e, tr3, rfl, h3⟩
                  · rw [List.append_nil]
                    refine ⟨fun q text k e => ?_, fun q text e hm => ?_⟩
                    · injection e with e1 e2 e3
                      subst e1; subst e2; subst e3
                      exact ⟨rfl, hrd, G, fun e => by cases e <;> exact ⟨_, rfl⟩⟩
                    · cases hrd _ hm
                  · obtain ⟨out, rfl, rfl⟩ : ∃ out, tr3 = [] ∧ o = .ret out := by
                      cases e <;>
                      · obtain ⟨a, b⟩ := talks_ret h3
                        exact ⟨_, a, b⟩
                    refine ⟨(fun q text k e => by cases e), fun q text e' hm => ?_⟩
                    have hm' : Exchange.write q text e' ∈ (Exchange.read p (.ok contents) :: tr1) ++
                        [Exchange.write (outputPath p) c.contents e] := hm
                    rcases List.mem_append.1 hm' with hm | hm
                    · cases hrd _ hm
                    · have := List.mem_singleton.1 hm
                      injection this with e1 e2 e3
                      subst e1; subst e2; subst e3
                      exact ⟨rfl, _, out, rfl, hrd, G, rfl⟩

/-- **C112.** Whatever other programs do to files while a document is compiled, so whatever answers the file system
gives: at most one file is written, the output of the document, as the last thing; and the text written is generated
from the document and fragments that were read. -/
theorem C112_written_from_what_was_read {tr : List Exchange} {o : Ops FileOutcome}
    (h : Talks (compileOps ω fuel ext cfg schema p) tr o) {q : Path} {text : String} {e : Option String}
    (hw : .write q text e ∈ tr) :
    q = outputPath p ∧ ∃ before out, tr = before ++ [.write q text e] ∧
      (∀ q' t e', .write q' t e' ∉ before) ∧ GeneratedFrom ω fuel ext cfg schema p before text ∧ o = .ret out := by
  obtain ⟨h1, before, out, h2, h3, h4, h5⟩ := (compileOps_talks h).2 q text e hw
  exact ⟨h1, before, out, h2, (fun q' t e' hm => by cases h3 _ hm), h4, h5⟩

theorem reaches_cons {α : Type} {w : World} {q : Path} {k : Except String String → Ops α} {o : Ops α}
    (h : Reaches w (k (w.read q)) o) : Reaches w (.read q k) o := by
  induction h with
  | refl => exact .read _ _ .refl
  | read q k _ ih => exact .read _ _ ih

/-- **C112.** If all answers were those of one state of the file system, the text is the one generated from that
state. -/
theorem C112_consistent_answers {w : World} {tr : List Exchange} {q : Path} {text : String}
    {k : Option String → Ops FileOutcome} (h : Talks (compileOps ω fuel ext cfg schema p) tr (.write q text k))
    (hw : ∀ q' r, .read q' r ∈ tr → w.read q' = r) :
    ∃ msgs c, generateFile ω fuel ext cfg schema w p = some (.done (.ok (msgs, c))) ∧ text = c.contents := by
  have hr : ∀ {a b : Ops FileOutcome} {tr : List Exchange}, Talks a tr b → (∀ x ∈ tr, isRead x) →
      (∀ q' r, .read q' r ∈ tr → w.read q' = r) → Reaches w a b := by
    intro a b tr h
    induction h with
    | here => intros; exact .refl
    | read _ ih =>
      intro h1 h2
      have e := h2 _ _ (List.mem_cons_self ..)
      have := ih (fun x hx => h1 x (List.mem_cons_of_mem _ hx)) (fun q r hx => h2 q r (List.mem_cons_of_mem _ hx))
      rw [← e] at this
      exact reaches_cons this
    | write _ _ =>
      intro h1 _
      cases h1 _ (List.mem_cons_self ..)
  obtain ⟨_, h1, _, _⟩ := (compileOps_talks h).1 _ _ _ rfl
  exact compileOps_writes (hr h h1 hw)

end

/-! ### The whole run -/

theorem owed_step {σ : Type} (compile : Compiler σ) (threads : Nat) (root : Entry) (s : PoolSt σ) (i : Nat)
    (h : ∀ q, q ∈ (pending s).flatMap workFiles → q ∈ filesOf root) :
    ∀ q, q ∈ (pending (s.step compile threads i)).flatMap workFiles → q ∈ filesOf root := by
  have hless : ∀ {w : Work} {rest : List Work}, (pending s).Perm (w :: rest) →
      (pending (s.step compile threads i)).Perm rest →
      ∀ q, q ∈ (pending (s.step compile threads i)).flatMap workFiles → q ∈ filesOf root := by
    intro w rest hp hp' q hq
    refine h q ((hp.flatMap_right _).mem_iff.2 ?_)
    rw [List.flatMap_cons]
    exact List.mem_append_right _ ((hp'.flatMap_right _).mem_iff.1 hq)
  cases step_effect compile threads s i with
  | quiet hp => exact fun q hq => h q ((hp.flatMap_right _).mem_iff.1 hq)
  | listed p es ws rest hp hr hp' =>
    intro q hq
    refine h q ((hp.flatMap_right _).mem_iff.2 ?_)
    have := (hp'.flatMap_right _).mem_iff.1 hq
    rw [List.flatMap_append] at this
    rw [List.flatMap_cons]
    simp only [workFiles]
    rw [(filesOf_dir_ok hr).1]
    exact this
  | unlisted e err p rest hp hr hp' => exact hless hp hp'
  | compiled p gs ms rest hp hr hp' => exact hless hp hp'
  | panicked p rest hp hr hp' => exact hless hp hp'

section
variable {ω : Path → Hash} {fuel : Nat} {ext : Ext} {cfg : CompileConfig} {schema : Schema} {w : World}
  {root : Entry} {threads : Nat}

/-- What is known about a compile under way. -/
def Airborne (ω : Path → Hash) (fuel : Nat) (ext : Ext) (cfg : CompileConfig) (schema : Schema) (p : Path)
    (A : Exchange → Prop) : Flight FileOutcome → Prop
  | .ops o => (∃ out, o = .ret out) ∨ ∃ tr, (∀ x ∈ tr, A x) ∧ Talks (compileOps (ω p) fuel ext cfg schema p) tr o
  | .writing _ _ _ next => ∃ out, next = .ret out

theorem Airborne.mono {p : Path} {A B : Exchange → Prop} (hAB : ∀ x, A x → B x) {f : Flight FileOutcome}
    (h : Airborne ω fuel ext cfg schema p A f) : Airborne ω fuel ext cfg schema p B f := by
  cases f with
  | ops o =>
    rcases h with h | ⟨tr, h1, h2⟩
    · exact .inl h
    · exact .inr ⟨tr, fun x hx => hAB x (h1 x hx), h2⟩
  | writing => exact h

theorem airborne_step {p : Path} {A : Exchange → Prop} {W W' : World} {m : Nat} {f f' : Flight FileOutcome}
    (h : Airborne ω fuel ext cfg schema p A f) (hA : ∀ q, A (.read q (W.read q)))
    (hs : f.step W m = .inl (f', W')) : Airborne ω fuel ext cfg schema p A f' := by
  cases f with
  | ops o =>
    cases o with
    | ret a => cases hs
    | read q k =>
      rcases h with ⟨out, h⟩ | ⟨tr, h1, h2⟩
      · cases h
      simp only [Flight.step, Sum.inl.injEq, Prod.mk.injEq] at hs
      obtain ⟨rfl, rfl⟩ := hs
      refine .inr ⟨tr ++ [.read q (W.read q)], ?_, talks_snoc h2 (.read (.here _))⟩
      intro x hx
      rcases List.mem_append.1 hx with hx | hx
      · exact h1 x hx
      · rw [List.mem_singleton.1 hx]; exact hA q
    | write q c k =>
      rcases h with ⟨out, h⟩ | ⟨tr, h1, h2⟩
      · cases h
      obtain ⟨_, _, _, hk⟩ := (compileOps_talks h2).1 _ _ _ rfl
      simp only [Flight.step] at hs
      split at hs
      · simp only [Sum.inl.injEq, Prod.mk.injEq] at hs
        rw [← hs.1]; exact .inl (hk _)
      · simp only [Sum.inl.injEq, Prod.mk.injEq] at hs
        rw [← hs.1]; exact hk _
      · simp only [Sum.inl.injEq, Prod.mk.injEq] at hs
        rw [← hs.1]; exact hk _
  | writing q t n next =>
    simp only [Flight.step] at hs
    split at hs
    · simp only [Sum.inl.injEq, Prod.mk.injEq] at hs
      rw [← hs.1]; exact .inl h
    · simp only [Sum.inl.injEq, Prod.mk.injEq] at hs
      rw [← hs.1]; exact h

/-- The invariant of a disturbed run. -/
structure DInv (ω : Path → Hash) (fuel : Nat) (ext : Ext) (cfg : CompileConfig) (schema : Schema) (root : Entry)
    (A : Exchange → Prop) (F : FinePool) : Prop where
  owed : ∀ q, q ∈ (pending F.pool).flatMap workFiles → q ∈ filesOf root
  flying : ∀ i f, F.flights i = some f → ∃ p, Running F.pool i p ∧ Airborne ω fuel ext cfg schema p A f

theorem dinv_worker {A B : Exchange → Prop} {F : FinePool} (I : DInv ω fuel ext cfg schema root A F)
    (hAB : ∀ x, A x → B x) (hB : ∀ q, B (.read q (F.pool.world.read q))) (im : Nat × Nat) :
    DInv ω fuel ext cfg schema root B
      (F.step (fun p => compileOps (ω p) fuel ext cfg schema p) threads im) := by
  have I' : DInv ω fuel ext cfg schema root B F :=
    ⟨I.owed, fun i f h => by obtain ⟨p, h1, h2⟩ := I.flying i f h; exact ⟨p, h1, h2.mono hAB⟩⟩
  obtain ⟨i, m⟩ := im
  unfold FinePool.step
  cases hme : F.pool.workers[i]? with
  | none => simpa [hme] using I'
  | some me =>
    simp only [hme]
    by_cases hrun : ∃ p, me.pc = .running (.graphQl p)
    · obtain ⟨p, hpc⟩ := hrun
      have hR : Running F.pool i p := ⟨me, hme, hpc⟩
      simp only [hpc]
      cases hfl : F.flights i with
      | none =>
        refine ⟨I'.owed, fun j f hj => ?_⟩
        simp only [FinePool.setFlight] at hj
        by_cases hji : j = i
        · subst hji
          simp only [if_true, Option.some.injEq] at hj
          subst hj
          exact ⟨p, hR, .inr ⟨[], by simp, .here _⟩⟩
        · simp only [hji, if_false] at hj
          exact I'.flying j f hj
      | some f =>
        obtain ⟨p', hR', hf⟩ := I'.flying i f hfl
        obtain rfl := hR.unique hR'
        simp only
        cases hs : f.step F.pool.world m with
        | inl r =>
          obtain ⟨f', W'⟩ := r
          refine ⟨I'.owed, fun j g hj => ?_⟩
          simp only [FinePool.setFlight] at hj
          by_cases hji : j = i
          · subst hji
            simp only [if_true, Option.some.injEq] at hj
            subst hj
            exact ⟨p, hR, airborne_step hf hB hs⟩
          · simp only [hji, if_false] at hj
            exact I'.flying j g hj
        | inr out =>
          have hend : ∀ c : Compiler World, DInv ω fuel ext cfg schema root B
              { F.setFlight i none with pool := F.pool.step c threads i } := by
            intro c
            refine ⟨owed_step c threads root F.pool i I'.owed, fun j g hj => ?_⟩
            simp only [FinePool.setFlight] at hj
            by_cases hji : j = i
            · subst hji
              simp at hj
            · simp only [hji, if_false] at hj
              obtain ⟨q, h1, h2⟩ := I'.flying j g hj
              exact ⟨q, (step_others_running c threads F.pool hji q).2 h1, h2⟩
          cases out with
          | diverge => exact I'
          | done gs ms => exact hend _
          | panic => exact hend _
    · have hp : ∀ c : Compiler World, DInv ω fuel ext cfg schema root B
          { F with pool := F.pool.step c threads i } := by
        intro c
        refine ⟨owed_step c threads root F.pool i I'.owed, fun j g hj => ?_⟩
        obtain ⟨q, h1, h2⟩ := I'.flying j g hj
        by_cases hji : j = i
        · subst hji
          obtain ⟨me', a, b⟩ := h1
          rw [hme] at a
          cases a
          exact absurd ⟨q, b⟩ hrun
        · exact ⟨q, (step_others_running c threads F.pool hji q).2 h1, h2⟩
      split
      · rename_i p hpc
        exact absurd ⟨p, hpc⟩ hrun
      · exact hp _

theorem disturbed_snoc {compile : Path → Ops FileOutcome} (F : FinePool) (moves : List Move) (x : Move) :
    disturbed compile threads F (moves ++ [x]) = move compile threads (disturbed compile threads F moves) x := by
  unfold disturbed
  rw [List.foldl_append]
  rfl

theorem onceAnswered_snoc {compile : Path → Ops FileOutcome} {F : FinePool} {moves : List Move} (x : Move)
    {e : Exchange} (h : OnceAnswered compile threads F moves e) : OnceAnswered compile threads F (moves ++ [x]) e := by
  cases e with
  | read q r =>
    obtain ⟨a, b, h1, h2⟩ := h
    exact ⟨a, b ++ [x], by rw [h1, List.append_assoc], h2⟩
  | write => exact h

theorem dinv_run (moves : List Move) :
    DInv ω fuel ext cfg schema root
      (OnceAnswered (fun p => compileOps (ω p) fuel ext cfg schema p) threads (FinePool.init w threads root) moves)
      (disturbed (fun p => compileOps (ω p) fuel ext cfg schema p) threads (FinePool.init w threads root) moves) := by
  induction moves using List.reverseRecOn with
  | nil =>
    refine ⟨fun q hq => ?_, fun i f h => by cases h⟩
    have e : (pending (FinePool.init w threads root).pool) = [.dirEntry root] := by
      unfold pending
      simp only [FinePool.init, PoolSt.init, List.flatMap_cons, List.flatMap_nil, List.append_nil]
      have : (List.replicate threads WorkerSt.init).flatMap heldWork = [] := by
        simp [List.flatMap_eq_nil_iff, WorkerSt.init, heldWork]
      rw [this]
      rfl
    have hq : q ∈ ([.dirEntry root] : List Work).flatMap workFiles := e ▸ hq
    simpa [workFiles] using hq
  | append_singleton moves x ih =>
    rw [disturbed_snoc]
    have hnow : ∀ q, OnceAnswered (fun p => compileOps (ω p) fuel ext cfg schema p) threads
        (FinePool.init w threads root) (moves ++ [x]) (.read q ((disturbed
          (fun p => compileOps (ω p) fuel ext cfg schema p) threads (FinePool.init w threads root)
          moves).pool.world.read q)) := fun q => ⟨moves, [x], rfl, rfl⟩
    cases x with
    | worker i n => exact dinv_worker ih (fun e h => onceAnswered_snoc _ h) hnow (i, n)
    | others c =>
      refine ⟨ih.owed, fun i f h => ?_⟩
      obtain ⟨p, h1, h2⟩ := ih.flying i f h
      exact ⟨p, h1, h2.mono (fun e h => onceAnswered_snoc _ h)⟩

/-- **C112.** While the program runs, with any number of threads and any schedule of single system calls, other
programs may change the file system between any two of them.  Whenever a worker is about to write a file, it is the
output of a document of the tree, and the text is generated from the document and from fragments as they were
written in files at moments of this run. -/
theorem C112_run_beside_an_editor (moves : List Move) (i : Nat) {q : Path} {text : String}
    {k : Option String → Ops FileOutcome}
    (h : (disturbed (fun p => compileOps (ω p) fuel ext cfg schema p) threads (FinePool.init w threads root)
      moves).flights i = some (.ops (.write q text k))) :
    ∃ p tr, FoundIn root p ∧ q = outputPath p ∧ GeneratedFrom (ω p) fuel ext cfg schema p tr text ∧
      ∀ x ∈ tr, OnceAnswered (fun p => compileOps (ω p) fuel ext cfg schema p) threads
        (FinePool.init w threads root) moves x := by
  have I := dinv_run (ω := ω) (fuel := fuel) (ext := ext) (cfg := cfg) (schema := schema) (w := w) (root := root)
    (threads := threads) moves
  obtain ⟨p, hR, hf⟩ := I.flying i _ h
  rcases hf with ⟨out, hf⟩ | ⟨tr, h1, h2⟩
  · cases hf
  obtain ⟨a, _, b, _⟩ := (compileOps_talks h2).1 _ _ _ rfl
  refine ⟨p, tr, (mem_filesOf root p).1 (I.owed p ?_), a, b, h1⟩
  obtain ⟨rest, hp⟩ := running_pending hR
  rw [(hp.flatMap_right _).mem_iff, List.flatMap_cons]
  simp [workFiles]

end

/-! ### Changes of files that do not matter -/

/-- In file systems that answer alike, a compile under way makes the same system call. -/
theorem flight_same {α : Type} {w W V : World} {S : Path → Prop} {out : Path} {P : Ops α} {d : Except String String}
    (hP : Well w S out P) (hWr : W.resolve = w.resolve) (hWe : W.writeErr = w.writeErr)
    (hVr : V.resolve = w.resolve) (hVe : V.writeErr = w.writeErr) (hread : ∀ q, S q → W.read q = V.read q)
    {f : Flight α} (T : OnTrack w out P d f) (m : Nat) :
    (∃ f' W' V', f.step W m = .inl (f', W') ∧ f.step V m = .inl (f', V') ∧
      W'.resolve = w.resolve ∧ W'.writeErr = w.writeErr ∧ V'.resolve = w.resolve ∧ V'.writeErr = w.writeErr ∧
      ∀ id, W.disk id = V.disk id → W'.disk id = V'.disk id) ∨
    (∃ a, f.step W m = .inr a ∧ f.step V m = .inr a) := by
  have hset : ∀ (q : Path) (r : Except String String) (id : String), W.disk id = V.disk id →
      (W.set (w.resolve q) r).disk id = (V.set (w.resolve q) r).disk id := by
    intro q r id h
    simp only [World.set]
    split
    · rfl
    · exact h
  cases T with
  | before o hR hd =>
    cases o with
    | ret a => exact .inr ⟨a, rfl, rfl⟩
    | read q k =>
      have hq : S q := by
        cases hR.well hP with
        | read _ _ h _ => exact h
      refine .inl ⟨.ops (k (W.read q)), W, V, rfl, ?_, hWr, hWe, hVr, hVe, fun _ h => h⟩
      rw [hread q hq]
      rfl
    | write q c k =>
      simp only [Flight.step, hWr, hWe, hVr, hVe]
      cases he : w.writeErr (w.resolve q) with
      | none => exact .inl ⟨_, _, _, rfl, rfl, hWr, hWe, hVr, hVe, hset q _⟩
      | some el =>
        obtain ⟨e, l⟩ := el
        cases l with
        | none => exact .inl ⟨_, _, _, rfl, rfl, hWr, hWe, hVr, hVe, fun _ h => h⟩
        | some l => exact .inl ⟨_, _, _, rfl, rfl, hWr, hWe, hVr, hVe, hset q _⟩
  | writing c k t n hR hL hd =>
    simp only [Flight.step, hWr, hVr]
    by_cases hn : byteLength t ≤ n
    · rw [if_pos hn, if_pos hn]
      exact .inl ⟨_, _, _, rfl, rfl, hWr, hWe, hVr, hVe, fun _ h => h⟩
    · rw [if_neg hn, if_neg hn]
      exact .inl ⟨_, _, _, rfl, rfl, hWr, hWe, hVr, hVe, hset out _⟩
  | after c k hR hd =>
    obtain ⟨a, ha⟩ : ∃ a, k (w.write out c).1 = .ret a := by
      cases hR.well hP with
      | write _ _ h => exact h _
    rw [ha]
    exact .inr ⟨a, rfl, rfl⟩

section
variable (ω : Path → Hash) (fuel : Nat) (ext : Ext) (cfg : CompileConfig) (schema : Schema) {w : World}
  {root : Entry} (threads : Nat)

/-- Two runs that differ at most in files that do not matter. -/
structure Alongside (w : World) (cfg : CompileConfig) (root : Entry) (F G : FinePool) : Prop where
  pool : F.pool = { G.pool with world := F.pool.world }
  flights : F.flights = G.flights
  resolve : F.pool.world.resolve = w.resolve
  writeErr : F.pool.world.writeErr = w.writeErr
  disk : ∀ id, Matters w cfg root id → F.pool.world.disk id = G.pool.world.disk id

theorem alongside_step (hr : NoOutputRead w cfg root) (hd : OutputsDistinct w root) (hn : (filesOf root).Nodup)
    {sched : List (Nat × Nat)} {F G : FinePool}
    (hG : G = (FinePool.init w threads root).run (progOf ω fuel ext cfg schema) threads sched)
    (A : Alongside w cfg root F G) (im : Nat × Nat) :
    Alongside w cfg root (F.step (progOf ω fuel ext cfg schema) threads im)
      (G.step (progOf ω fuel ext cfg schema) threads im) := by
  obtain ⟨sched', C, hC, S⟩ := sim_run ω fuel ext cfg schema threads hr hd hn sched
  rw [← hG] at S
  have K := known_of_reached ω fuel ext cfg schema threads hr hd hn hC
  obtain ⟨i, m⟩ := im
  have hw : F.pool.workers = G.pool.workers := by rw [A.pool]
  have hCw : G.pool.workers = C.workers := by rw [S.pool]
  have hw' : F.pool.workers[(i, m).1]? = G.pool.workers[i]? := by rw [hw]
  unfold FinePool.step
  rw [hw']
  cases hme : G.pool.workers[i]? with
  | none => exact A
  | some me =>
    simp only
    by_cases hrun : ∃ p, me.pc = .running (.graphQl p)
    · obtain ⟨p, hpc⟩ := hrun
      simp only [hpc, A.flights]
      have hRC : Running C i p := ⟨me, hCw ▸ hme, hpc⟩
      cases hfl : G.flights i with
      | none =>
        refine ⟨A.pool, ?_, A.resolve, A.writeErr, A.disk⟩
        simp only [FinePool.setFlight, A.flights]
      | some f =>
        simp only
        obtain ⟨p', hR', T⟩ := S.flying i f hfl
        obtain rfl := hRC.unique hR'
        have hfound := K.found i p hRC
        have hread : ∀ q, Spec.Reads w cfg p q → F.pool.world.read q = G.pool.world.read q := by
          intro q hq
          unfold World.read
          rw [A.resolve, S.resolve]
          exact A.disk _ (.inr ⟨p, q, hfound, hq, rfl⟩)
        rcases flight_same (compileOps_well (ω p) fuel ext cfg schema w p) A.resolve A.writeErr S.resolve S.writeErr
          hread T m with ⟨f', W', V', e1, e2, r1, r2, _, _, r5⟩ | ⟨a, e1, e2⟩
        · rw [e1, e2]
          refine ⟨?_, ?_, r1, r2, fun id h => r5 id (A.disk id h)⟩
          · show ({ F.pool with world := W' } : PoolSt World) = { G.pool with world := W' }
            exact congrArg (fun P : PoolSt World => { P with world := W' }) A.pool
          · simp only [FinePool.setFlight, A.flights]
        · rw [e1, e2]
          have hend : a ≠ .diverge → Alongside w cfg root
              { F.setFlight i none with pool := F.pool.step (fun w _ => (a, w)) threads i }
              { G.setFlight i none with pool := G.pool.step (fun w _ => (a, w)) threads i } := by
            intro ha
            obtain ⟨g1, g2, _, _⟩ := step_returns (threads := threads) hme hpc F.pool.world G.pool.world a ha
              (fun w _ => (a, w)) rfl
            rw [← A.pool] at g1
            have hW : (F.pool.step (fun w _ => (a, w)) threads i).world = F.pool.world := by rw [g1]
            refine ⟨?_, ?_, ?_, ?_, ?_⟩
            · show F.pool.step (fun w _ => (a, w)) threads i =
                { G.pool.step (fun w _ => (a, w)) threads i with
                  world := (F.pool.step (fun w _ => (a, w)) threads i).world }
              rw [hW]; exact g1
            · simp only [FinePool.setFlight, A.flights]
            · show (F.pool.step (fun w _ => (a, w)) threads i).world.resolve = _
              rw [hW]; exact A.resolve
            · show (F.pool.step (fun w _ => (a, w)) threads i).world.writeErr = _
              rw [hW]; exact A.writeErr
            · intro id h
              show (F.pool.step (fun w _ => (a, w)) threads i).world.disk id =
                (G.pool.step (fun w _ => (a, w)) threads i).world.disk id
              rw [hW, g2]; exact A.disk id h
          cases a with
          | diverge => exact A
          | done gs ms => exact hend (fun h => by cases h)
          | panic => exact hend (fun h => by cases h)
    · have hne : ∀ p, me.pc ≠ .running (.graphQl p) := fun p h => hrun ⟨p, h⟩
      obtain ⟨g1, g2⟩ := step_elsewhere (threads := threads) hme hne F.pool.world (fun w _ => (.diverge, w))
        (fun w _ => (.diverge, w))
      rw [← A.pool] at g1
      have hW : (F.pool.step (fun w _ => (.diverge, w)) threads i).world = F.pool.world := by rw [g1]
      have hgoal : Alongside w cfg root { F with pool := F.pool.step (fun w _ => (.diverge, w)) threads i }
          { G with pool := G.pool.step (fun w _ => (.diverge, w)) threads i } := by
        refine ⟨?_, A.flights, ?_, ?_, ?_⟩
        · show F.pool.step (fun w _ => (.diverge, w)) threads i =
            { G.pool.step (fun w _ => (.diverge, w)) threads i with
              world := (F.pool.step (fun w _ => (.diverge, w)) threads i).world }
          rw [hW]; exact g1
        · show (F.pool.step (fun w _ => (.diverge, w)) threads i).world.resolve = _
          rw [hW]; exact A.resolve
        · show (F.pool.step (fun w _ => (.diverge, w)) threads i).world.writeErr = _
          rw [hW]; exact A.writeErr
        · intro id h
          show (F.pool.step (fun w _ => (.diverge, w)) threads i).world.disk id =
            (G.pool.step (fun w _ => (.diverge, w)) threads i).world.disk id
          rw [hW, g2]; exact A.disk id h
      obtain ⟨pc, iw, iq, ms, gs⟩ := me
      cases pc with
      | running work =>
        cases work with
        | graphQl p => exact absurd rfl (hne p)
        | dirEntry e => exact hgoal
      | _ => exact hgoal

theorem ownSteps_snoc (moves : List Move) (x : Move) : ownSteps (moves ++ [x]) = ownSteps moves ++ ownSteps [x] := by
  induction moves with
  | nil => rfl
  | cons y moves ih =>
    cases y with
    | worker i n => simp [ownSteps, ih]
    | others c => simp [ownSteps, ih]

/-- **C112.** Changes that other programs make, at any moments of a run, to files that are neither read nor outputs
do not matter: the workers are in the same states as after the same steps without these changes, with the same
messages, and the files that matter hold the same. -/
theorem C112_unrelated_changes (hr : NoOutputRead w cfg root) (hd : OutputsDistinct w root)
    (hn : (filesOf root).Nodup) (moves : List Move)
    (hu : ∀ change, .others change ∈ moves → Unrelated w cfg root change) :
    let F := disturbed (fun p => compileOps (ω p) fuel ext cfg schema p) threads (FinePool.init w threads root) moves
    let G := (FinePool.init w threads root).run (fun p => compileOps (ω p) fuel ext cfg schema p) threads
      (ownSteps moves)
    F.pool = { G.pool with world := F.pool.world } ∧ F.flights = G.flights ∧
    ∀ id, Matters w cfg root id → F.pool.world.disk id = G.pool.world.disk id := by
  have key : Alongside w cfg root
      (disturbed (fun p => compileOps (ω p) fuel ext cfg schema p) threads (FinePool.init w threads root) moves)
      ((FinePool.init w threads root).run (fun p => compileOps (ω p) fuel ext cfg schema p) threads
        (ownSteps moves)) := by
    induction moves using List.reverseRecOn with
    | nil => exact ⟨rfl, rfl, rfl, rfl, fun _ _ => rfl⟩
    | append_singleton moves x ih =>
      have A := ih (fun c hc => hu c (List.mem_append_left _ hc))
      rw [disturbed_snoc, ownSteps_snoc]
      cases x with
      | worker i n =>
        have := alongside_step ω fuel ext cfg schema threads hr hd hn rfl A (i, n)
        unfold FinePool.run at this ⊢
        rw [List.foldl_append]
        exact this
      | others c =>
        simp only [ownSteps, List.append_nil]
        generalize disturbed (fun p => compileOps (ω p) fuel ext cfg schema p) threads (FinePool.init w threads root)
          moves = F at A
        obtain ⟨u1, u2, u3⟩ := hu c (List.mem_append_right _ (List.mem_singleton.2 rfl)) F.pool.world
        refine ⟨?_, A.flights, u1.trans A.resolve, u2.trans A.writeErr, fun id h => (u3 id h).trans (A.disk id h)⟩
        exact congrArg (fun P : PoolSt World => { P with world := c F.pool.world }) A.pool
  exact ⟨key.pool, key.flights, key.disk⟩

end

/-! ### The demo -/

/-- The document is there, the fragment it imports is not. -/
def Demo.mixWorld : World where
  resolve := Path.display
  disk := fun id => if id = "/r/q.graphql" then .ok Demo.runText else .error "missing"
  writeErr := fun _ => none

/-- An editor empties the document and saves the fragment. -/
def Demo.mixChange (w : World) : World where
  resolve := w.resolve
  disk := fun id =>
    if id = "/r/q.graphql" then .ok "" else if id = "/r/f.graphql" then .ok "fragment F" else .error "missing"
  writeErr := w.writeErr

/-- One document. -/
def Demo.mixTree : Entry := .dir ⟨true, ["r"]⟩ [.file Demo.qPath]

/-- After eleven steps the worker has read the document; then the files change. -/
def Demo.mixMoves : List Move :=
  List.replicate 11 (.worker 0 1000) ++ [.others Demo.mixChange, .worker 0 1000]

/-- The demo, after the first so many moves. -/
def mixAt (n : Nat) : FinePool :=
  disturbed (fun p => compileOps .inOrder 9 Demo.runExt Demo.cfg Demo.respSchema p) 1
    (FinePool.init Demo.mixWorld 1 Demo.mixTree) (Demo.mixMoves.take n)

/-- A test: no text is generated from this state of the file system. -/
def generatesNothing (w : World) : Bool :=
  match generateFile .inOrder 9 Demo.runExt Demo.cfg Demo.respSchema w Demo.qPath with
  | some (.done (.error _)) => true
  | _ => false

/-- A test: worker 0 is about to write. -/
def aboutToWrite (F : FinePool) : Bool :=
  match F.flights 0 with
  | some (.ops (.write _ _ _)) => true
  | _ => false

/-- **C112.** The text may be generated from a mixture: here a worker is about to write a file, although at no
moment of the run the files were such that one would have been generated. -/
theorem C112_mixture_witness : ∃ q text k,
    (disturbed (fun p => compileOps .inOrder 9 Demo.runExt Demo.cfg Demo.respSchema p) 1
      (FinePool.init Demo.mixWorld 1 Demo.mixTree) Demo.mixMoves).flights 0 = some (.ops (.write q text k)) ∧
    ∀ before after, Demo.mixMoves = before ++ after → ∀ msgs c, generateFile .inOrder 9 Demo.runExt Demo.cfg
      Demo.respSchema (disturbed (fun p => compileOps .inOrder 9 Demo.runExt Demo.cfg Demo.respSchema p) 1
        (FinePool.init Demo.mixWorld 1 Demo.mixTree) before).pool.world Demo.qPath ≠
        some (.done (.ok (msgs, c))) := by
  have h1 : aboutToWrite (mixAt 13) = true := by decide +kernel
  have h2 : ∀ n ∈ List.range 14, generatesNothing (mixAt n).pool.world = true := by decide +kernel
  have e13 : mixAt 13 = disturbed (fun p => compileOps .inOrder 9 Demo.runExt Demo.cfg Demo.respSchema p) 1
      (FinePool.init Demo.mixWorld 1 Demo.mixTree) Demo.mixMoves := rfl
  rw [← e13]
  unfold aboutToWrite at h1
  generalize (mixAt 13).flights 0 = f at h1
  cases f with
  | none => cases h1
  | some f =>
    cases f with
    | writing => cases h1
    | ops o =>
      cases o with
      | ret => cases h1
      | read => cases h1
      | write q text k =>
        refine ⟨q, text, k, rfl, fun before after e msgs c hg => ?_⟩
        have hlen : before.length < 14 := by
          have := congrArg List.length e
          have h13 : Demo.mixMoves.length = 13 := rfl
          rw [h13, List.length_append] at this
          omega
        have hb : Demo.mixMoves.take before.length = before := by rw [e]; simp
        have := h2 before.length (List.mem_range.2 hlen)
        unfold mixAt at this
        rw [hb] at this
        unfold generatesNothing at this
        rw [hg] at this
        cases this

/-- Another program writes a file of its own. -/
def Demo.noteChange (w : World) : World := w.set "/r/notes.txt" (.ok "hello")

/-- The hypotheses of `C112_unrelated_changes` are met by the demo and a program that writes a file of its own. -/
theorem C112_unrelated_demo : NoOutputRead Demo.world Demo.cfg Demo.fileTree ∧
    OutputsDistinct Demo.world Demo.fileTree ∧ (filesOf Demo.fileTree).Nodup ∧
    (∀ change, .others change ∈ [Move.worker 0 1, .others Demo.noteChange, .worker 0 1] →
      Unrelated Demo.world Demo.cfg Demo.fileTree change) := by
  refine ⟨demo_noOutputRead, demo_outputsDistinct, demo_nodup, fun change h => ?_⟩
  have : change = Demo.noteChange := by simpa using h
  subst this
  intro v
  refine ⟨rfl, rfl, fun id hm => ?_⟩
  have hne : id ≠ "/r/notes.txt" := by
    rcases hm with ho | ⟨p, q, hp, hq, rfl⟩
    · rcases demo_output ho with rfl | rfl <;> decide
    · rcases demo_reads (demo_found hp) hq with rfl | rfl | rfl <;> decide +kernel
  simp [Demo.noteChange, World.set, hne]

end Qlc
