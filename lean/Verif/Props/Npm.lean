import Verif.Props.Warnings
import Verif.Spec.Npm
import Verif.Props.Json
import Verif.Props.Schema
import Verif.Lemmas.Loaded
import Verif.Lemmas.RespCheck
/-
C85: installing the npm package.  C86: downloading a schema.  C87: what a downloaded schema says.
-/
set_option autoImplicit false

namespace Qlc
open Spec

/-! ### C85 -/

variable {sha256 : Bytes → String} {expected : Option String}

/-- The tarball has the digest that package.json lists for the platform. -/
def GoodTarball (sha256 : Bytes → String) (expected : Option String) (b : Bytes) : Prop :=
  expected = some (sha256 b)

/-- What holds at every point of an undisturbed installation. -/
def InstallInv (sha256 : Bytes → String) (expected : Option String) (s : Install) : Prop :=
  (s.request ≠ .over → s.download ≠ .resolved) ∧
  match s.pc with
  | .downloading => s.unpacked = [] ∧ s.executable = false
  | .checking | .discarding => s.download = .resolved ∧ s.unpacked = [] ∧ s.executable = false
  | .unpacking => s.download = .resolved ∧ s.unpacked = [] ∧ s.executable = false ∧
      ∀ b, s.tarball = some b → GoodTarball sha256 expected b
  | .finishing u c => s.download = .resolved ∧
      (∃ b, s.unpacked = [b] ∧ GoodTarball sha256 expected b) ∧ s.executable = c ∧
      (u = true → s.tarball = none)
  | .exited 0 => (∃ b, s.unpacked = [b] ∧ GoodTarball sha256 expected b) ∧ s.executable = true ∧
      s.tarball = none
  | .exited _ => s.unpacked.length ≤ 1 ∧ ∀ b ∈ s.unpacked, GoodTarball sha256 expected b
  | .drained => s.unpacked = [] ∧ s.executable = false

theorem inv_settle {s : Install} (h : InstallInv sha256 expected s) :
    InstallInv sha256 expected s.settle := by
  unfold Install.settle
  split
  · rename_i hpc
    unfold Install.await
    unfold InstallInv at h ⊢
    rw [hpc] at h
    split
    · simp only [h, true_and]; exact ⟨h.1, by simp⟩
    · split
      · rename_i hb
        exact ⟨h.1, hb.2, h.2⟩
      · rw [hpc]; exact h
  · exact h

theorem inv_step {s : Install} {e : InstallEvent} (h : InstallInv sha256 expected s)
    (he : ∀ b, e ≠ .meddle b) : InstallInv sha256 expected (s.step sha256 expected e) := by
  have hreq : s.download = .resolved → s.request = .over := by
    intro hd
    by_contra hr
    exact h.1 hr hd
  cases hpc : s.pc with
  | exited c => unfold Install.step; rw [hpc]; exact h
  | drained => unfold Install.step; rw [hpc]; exact h
  | downloading =>
    have h' := h
    unfold InstallInv at h'
    rw [hpc] at h'
    obtain ⟨h1, h2, h3⟩ := h'
    cases e <;> unfold Install.step <;> rw [hpc] <;> simp only
    case meddle b => exact absurd rfl (he b)
    case binDir ok =>
      split
      · apply inv_settle
        simp only [InstallInv]
        exact ⟨h1, h2, h3⟩
      · exact h
    case respond status loc =>
      split
      · split
        · simp only [InstallInv]
          rename_i hr _
          exact ⟨fun _ => h1 (by rw [hr]; simp), h2, h3⟩
        · split
          · split
            · exact h
            · apply inv_settle
              simp only [InstallInv]
              exact ⟨fun x => absurd rfl x, h2, h3⟩
          · simp only [InstallInv, Install.cleanup]
            exact ⟨fun x => absurd rfl x, h2, h3⟩
      · exact h
    case chunk b =>
      split
      · simp only [InstallInv]; exact ⟨h1, h2, h3⟩
      · exact h
    case finish =>
      split
      · apply inv_settle
        simp only [InstallInv]
        exact ⟨fun x => absurd rfl x, h2, h3⟩
      · exact h
    case cutOff =>
      split
      · simp only [InstallInv]; exact ⟨fun x => absurd rfl x, h2, h3⟩
      · exact h
    case writeError =>
      split
      · simp only [InstallInv]; exact ⟨h1, by simp [h2]⟩
      · exact h
    case requestError =>
      split
      · simp only [InstallInv, Install.cleanup]; exact ⟨fun x => absurd rfl x, h2, h3⟩
      · exact h
    case lateError => simp only [InstallInv, Install.cleanup, hpc]; exact ⟨h1, h2, h3⟩
    case cleanedUp ok =>
      split
      · apply inv_settle
        simp only [InstallInv]
        refine ⟨fun hr => ?_, h2, h3⟩
        have := h1 hr
        cases hd : s.download <;> simp_all [Settled.reject]
      · exact h
    case idle =>
      split
      · simp only [InstallInv]; exact ⟨h1, h2, h3⟩
      · exact h
    all_goals exact h
  | checking =>
    have h' := h
    unfold InstallInv at h'
    rw [hpc] at h'
    obtain ⟨h1, hd, h2, h3⟩ := h'
    have hr := hreq hd
    replace h1 : Request.over ≠ Request.over → s.download ≠ .resolved := fun x => absurd rfl x
    cases e <;> unfold Install.step <;> rw [hpc] <;>
      simp only [hr, reduceCtorEq, if_false] <;> try exact h
    case meddle b => exact absurd rfl (he b)
    case binDir ok =>
      split
      · apply inv_settle
        simp only [InstallInv]
        exact ⟨fun x => absurd rfl x, hd, h2, h3⟩
      · exact h
    case cleanedUp ok =>
      split
      · apply inv_settle
        simp only [InstallInv, hd, Settled.reject]
        exact ⟨by simp [hr], trivial, h2, h3⟩
      · exact h
    case read ok =>
      cases hx : expected with
      | none => simp only [InstallInv]; exact ⟨h1, hd, h2, h3⟩
      | some digest =>
        simp only
        split
        · simp only [InstallInv]; exact ⟨h1, hd, h2, h3⟩
        · split
          · simp only [InstallInv]; exact ⟨h1, hd, h2, h3⟩
          · rename_i hne b hb
            split
            · rename_i hdig
              simp only [InstallInv]
              refine ⟨h1, hd, h2, h3, ?_⟩
              intro b' hb'
              have : s.tarball = some b := by cases ok <;> simp_all
              rw [this] at hb'
              injection hb' with hb'
              subst hb'
              unfold GoodTarball
              rw [hdig]
            · simp only [InstallInv]; exact ⟨h1, hd, h2, h3⟩
  | discarding =>
    have h' := h
    unfold InstallInv at h'
    rw [hpc] at h'
    obtain ⟨h1, hd, h2, h3⟩ := h'
    have hr := hreq hd
    replace h1 : Request.over ≠ Request.over → s.download ≠ .resolved := fun x => absurd rfl x
    cases e <;> unfold Install.step <;> rw [hpc] <;>
      simp only [hr, reduceCtorEq, if_false] <;> try exact h
    case meddle b => exact absurd rfl (he b)
    case binDir ok =>
      split
      · apply inv_settle
        simp only [InstallInv]
        exact ⟨fun x => absurd rfl x, hd, h2, h3⟩
      · exact h
    case cleanedUp ok =>
      split
      · apply inv_settle
        simp only [InstallInv, hd, Settled.reject]
        exact ⟨by simp [hr], trivial, h2, h3⟩
      · exact h
    case unlinked ok => simp only [InstallInv]; exact ⟨h1, by simp [h2]⟩
  | unpacking =>
    have h' := h
    unfold InstallInv at h'
    rw [hpc] at h'
    obtain ⟨h1, hd, h2, h3, h4⟩ := h'
    have hr := hreq hd
    replace h1 : Request.over ≠ Request.over → s.download ≠ .resolved := fun x => absurd rfl x
    cases e <;> unfold Install.step <;> rw [hpc] <;>
      simp only [hr, reduceCtorEq, if_false] <;> try exact h
    case meddle b => exact absurd rfl (he b)
    case binDir ok =>
      split
      · apply inv_settle
        simp only [InstallInv]
        exact ⟨fun x => absurd rfl x, hd, h2, h3, h4⟩
      · exact h
    case cleanedUp ok =>
      split
      · apply inv_settle
        simp only [InstallInv, hd, Settled.reject]
        refine ⟨by simp [hr], trivial, h2, h3, ?_⟩
        cases ok
        · simpa using h4
        · simp
      · exact h
    case noTar => simp only [InstallInv]; exact ⟨h1, by simp [h2]⟩
    case tar code =>
      cases ht : s.tarball with
      | none => simp only [InstallInv]; exact ⟨h1, by simp [h2]⟩
      | some b =>
        have hg := h4 b ht
        simp only
        split
        · simp only [InstallInv, h2, List.nil_append]
          exact ⟨h1, hd, ⟨b, rfl, hg⟩, h3, by simp⟩
        · simp only [InstallInv, h2, List.nil_append]
          exact ⟨h1, by simp, by simpa using hg⟩
  | finishing u c =>
    have h' := h
    unfold InstallInv at h'
    rw [hpc] at h'
    obtain ⟨h1, hd, h2, h3, h4⟩ := h'
    have hr := hreq hd
    replace h1 : Request.over ≠ Request.over → s.download ≠ .resolved := fun x => absurd rfl x
    have hgood : s.unpacked.length ≤ 1 ∧ ∀ b ∈ s.unpacked, GoodTarball sha256 expected b := by
      obtain ⟨b, e, hg⟩ := h2
      rw [e]
      simpa using hg
    cases e <;> unfold Install.step <;> rw [hpc] <;>
      simp only [hr, reduceCtorEq, if_false] <;> try exact h
    case meddle b => exact absurd rfl (he b)
    case binDir ok =>
      split
      · apply inv_settle
        simp only [InstallInv]
        exact ⟨fun x => absurd rfl x, hd, h2, h3, h4⟩
      · exact h
    case cleanedUp ok =>
      split
      · apply inv_settle
        simp only [InstallInv, hd, Settled.reject]
        refine ⟨by simp [hr], trivial, h2, h3, ?_⟩
        cases ok
        · simpa using h4
        · simp
      · exact h
    case unlinked ok =>
      cases u
      · cases ok
        · simp only [InstallInv, Bool.false_eq_true, if_false]
          exact ⟨h1, hgood⟩
        · simp only [if_true, Install.finishing]
          cases c
          · simp only [InstallInv, Bool.and_false, Bool.false_eq_true, if_false]
            exact ⟨h1, hd, h2, h3, by simp⟩
          · simp only [InstallInv, Bool.and_self, if_true]
            exact ⟨h1, h2, h3, trivial⟩
      · exact h
    case chmod ok =>
      cases c
      · cases ok
        · simp only [InstallInv, Bool.false_eq_true, if_false]
          exact ⟨h1, hgood⟩
        · simp only [if_true, Install.finishing]
          cases u
          · simp only [InstallInv, Bool.false_and, Bool.false_eq_true, if_false]
            exact ⟨h1, hd, h2, trivial, by simp⟩
          · simp only [InstallInv, Bool.and_self, if_true]
            exact ⟨h1, h2, trivial, h4 rfl⟩
      · exact h

theorem inv_run {es : List InstallEvent} : ∀ {s : Install}, InstallInv sha256 expected s →
    Undisturbed es → InstallInv sha256 expected (es.foldl (Install.step sha256 expected) s) := by
  induction es with
  | nil => intro s h _; exact h
  | cons e es ih =>
    intro s h hu
    exact ih (inv_step h (hu e (by simp))) (fun e' he' => hu e' (by simp [he']))

theorem inv_start (platform arch : String) (left : Option Bytes) :
    InstallInv sha256 expected (Install.start platform arch left) := by
  unfold Install.start
  split <;> simp [InstallInv]

variable {checksums : String → Option String} {platform arch : String} {left : Option Bytes}
  {es : List InstallEvent}

/-- **C85.** Whatever the servers answer, however often they redirect, whatever fails and wherever the
installation is stopped: nothing is ever unpacked but a tarball with the digest that package.json lists
for the platform, and at most one. -/
theorem C85_only_verified_tarballs_are_unpacked (hu : Undisturbed es) :
    (Install.run sha256 checksums platform arch left es).unpacked.length ≤ 1 ∧
    ∀ b ∈ (Install.run sha256 checksums platform arch left es).unpacked,
      ∃ target, getTarget platform arch = some target ∧ checksums target = some (sha256 b) := by
  have h := inv_run (es := es) (inv_start (sha256 := sha256)
    (expected := (getTarget platform arch).bind checksums) platform arch left) hu
  change InstallInv sha256 _ (Install.run sha256 checksums platform arch left es) at h
  have key : (Install.run sha256 checksums platform arch left es).unpacked.length ≤ 1 ∧
      ∀ b ∈ (Install.run sha256 checksums platform arch left es).unpacked,
        GoodTarball sha256 ((getTarget platform arch).bind checksums) b := by
    have h2 := h.2
    split at h2
    · simp [h2.1]
    · simp [h2.2.1]
    · simp [h2.2.1]
    · simp [h2.2.1]
    · obtain ⟨_, ⟨b, e, hg⟩, _⟩ := h2; rw [e]; simpa using hg
    · obtain ⟨⟨b, e, hg⟩, _⟩ := h2; rw [e]; simpa using hg
    · exact h2
    · simp [h2.1]
  refine ⟨key.1, fun b hb => ?_⟩
  have hg := key.2 b hb
  unfold GoodTarball at hg
  cases ht : getTarget platform arch with
  | none => rw [ht] at hg; simp at hg
  | some t => rw [ht] at hg; exact ⟨t, rfl, hg⟩

/-- **C85.** If the script exits with status 0, qlc was unpacked from a verified tarball and made
executable, and the tarball is gone. -/
theorem C85_success_means_installed (hu : Undisturbed es)
    (hx : (Install.run sha256 checksums platform arch left es).pc = .exited 0) :
    Installed (Install.run sha256 checksums platform arch left es) ∧
    (Install.run sha256 checksums platform arch left es).tarball = none := by
  have h := inv_run (es := es) (inv_start (sha256 := sha256)
    (expected := (getTarget platform arch).bind checksums) platform arch left) hu
  change InstallInv sha256 _ (Install.run sha256 checksums platform arch left es) at h
  have h2 := h.2
  rw [hx] at h2
  obtain ⟨⟨b, e, _⟩, h3, h4⟩ := h2
  exact ⟨⟨h3, b, e⟩, h4⟩

/-- Why an installation can come to nothing without an error: the last answer broke off. -/
def StallInv (seen : Prop) (s : Install) : Prop :=
  match s.pc with
  | .downloading => s.binDir ≠ .rejected ∧ s.download ≠ .rejected ∧
      ¬ (s.binDir = .resolved ∧ s.download = .resolved) ∧
      (s.request = .over → s.download = .pending → 0 < s.cleanups ∨ seen)
  | .drained => seen
  | _ => True

theorem stall_settle {seen : Prop} {s : Install} (hpc : s.pc = .downloading)
    (h : s.request = .over → s.download = .pending → 0 < s.cleanups ∨ seen) :
    StallInv seen s.settle := by
  unfold Install.settle
  rw [hpc]
  unfold Install.await
  simp only
  split
  · simp [StallInv]
  · split
    · simp [StallInv]
    · rename_i h1 h2
      simp only [StallInv, hpc]
      exact ⟨fun e => h1 (.inl e), fun e => h1 (.inr e), h2, h⟩

theorem stall_step {seen : Prop} {s : Install} {e : InstallEvent} (h : StallInv seen s) :
    StallInv (seen ∨ e = .cutOff) (s.step sha256 expected e) := by
  cases hpc : s.pc with
  | exited c => unfold Install.step; rw [hpc]; simp [StallInv, hpc]
  | drained =>
    unfold Install.step; rw [hpc]
    unfold StallInv at h ⊢; rw [hpc] at h ⊢
    exact .inl h
  | downloading =>
    have h' := h
    unfold StallInv at h'
    rw [hpc] at h'
    obtain ⟨h1, h2, h3, h4⟩ := h'
    have same : StallInv (seen ∨ e = .cutOff) s := by
      simp only [StallInv, hpc]
      exact ⟨h1, h2, h3, fun a b => (h4 a b).imp_right .inl⟩
    have weak : s.request = .over → s.download = .pending → 0 < s.cleanups ∨ seen ∨ e = .cutOff :=
      fun a b => (h4 a b).imp_right .inl
    cases e <;> unfold Install.step <;> rw [hpc] <;> simp only
    case meddle b =>
      simp only [StallInv, hpc]
      exact ⟨h1, h2, h3, weak⟩
    case binDir ok =>
      split
      · exact stall_settle rfl weak
      · exact same
    case respond status loc =>
      split
      · split
        · simp only [StallInv]
          exact ⟨h1, h2, h3, by simp⟩
        · split
          · split
            · exact same
            · apply stall_settle rfl
              intro _ hd
              cases hx : s.download <;> simp_all [Settled.reject]
          · simp only [StallInv, Install.cleanup]
            exact ⟨h1, h2, h3, fun _ _ => .inl (by omega)⟩
      · exact same
    case chunk b =>
      split
      · simp only [StallInv]
        exact ⟨h1, h2, h3, weak⟩
      · exact same
    case finish =>
      split
      · apply stall_settle rfl
        intro _ hd
        cases hx : s.download <;> simp_all [Settled.resolve]
      · exact same
    case cutOff =>
      split
      · simp only [StallInv]
        exact ⟨h1, h2, h3, fun _ _ => .inr (.inr trivial)⟩
      · simpa using same
    case writeError =>
      split
      · simp [StallInv]
      · exact same
    case requestError =>
      split
      · simp only [StallInv, Install.cleanup]
        exact ⟨h1, h2, h3, fun _ _ => .inl (by omega)⟩
      · exact same
    case lateError =>
      simp only [StallInv, Install.cleanup, hpc]
      exact ⟨h1, h2, h3, fun _ _ => .inl (by omega)⟩
    case cleanedUp ok =>
      split
      · apply stall_settle rfl
        intro _ hd
        cases hx : s.download <;> simp_all [Settled.reject]
      · exact same
    case idle =>
      split
      · rename_i hi
        simp only [StallInv]
        have hb : s.binDir = .resolved := by
          cases hx : s.binDir <;> simp_all
        have hd : s.download = .pending := by
          cases hx : s.download <;> simp_all
        rcases h4 hi.2.1 hd with hc | hs
        · omega
        · exact .inl hs
      · exact same
    all_goals exact same
  | _ =>
    have : ∀ s' : Install, s'.pc ≠ .downloading → s'.pc ≠ .drained →
        StallInv (seen ∨ e = .cutOff) s' := by
      intro s' a b
      unfold StallInv
      split <;> simp_all
    apply this <;> (cases e <;> unfold Install.step <;> rw [hpc] <;>
      simp only [Install.settle, Install.cleanup, Install.finishing] <;>
      repeat' first
        | (simp only [hpc, ne_eq, reduceCtorEq, not_false_eq_true]; done)
        | (simp_all; done)
        | split)

theorem stall_run {es : List InstallEvent} : ∀ {s : Install} {seen : Prop}, StallInv seen s →
    StallInv (seen ∨ .cutOff ∈ es) (es.foldl (Install.step sha256 expected) s) := by
  induction es with
  | nil => intro s seen h; simpa using h
  | cons e es ih =>
    intro s seen h
    have := ih (stall_step (e := e) (sha256 := sha256) (expected := expected) h)
    have eq : ((seen ∨ e = .cutOff) ∨ InstallEvent.cutOff ∈ es) = (seen ∨ .cutOff ∈ e :: es) := by
      simp only [List.mem_cons, or_assoc, eq_comm]
    rwa [eq] at this

/-- **C85.** Exit status 0 means that qlc is installed, or that an answer broke off and nothing at all
was done. -/
theorem C85_exit_status_zero (hu : Undisturbed es)
    (hx : exitStatus (Install.run sha256 checksums platform arch left es) = some 0) :
    Installed (Install.run sha256 checksums platform arch left es) ∨
    (.cutOff ∈ es ∧ (Install.run sha256 checksums platform arch left es).unpacked = [] ∧
      (Install.run sha256 checksums platform arch left es).executable = false) := by
  unfold exitStatus at hx
  split at hx
  · rename_i c hpc
    injection hx with hx
    subst hx
    exact .inl (C85_success_means_installed hu hpc).1
  · rename_i hpc
    right
    have h := inv_run (es := es) (inv_start (sha256 := sha256)
      (expected := (getTarget platform arch).bind checksums) platform arch left) hu
    change InstallInv sha256 _ (Install.run sha256 checksums platform arch left es) at h
    have h2 := h.2
    rw [hpc] at h2
    have hs : StallInv (False ∨ .cutOff ∈ es) (Install.run sha256 checksums platform arch left es) := by
      refine stall_run ?_
      unfold Install.start
      split <;> simp [StallInv]
    unfold StallInv at hs
    rw [hpc] at hs
    exact ⟨by simpa using hs, h2⟩
  · simp at hx

/-- **C85.** On any other platform than the four that are released, the script touches nothing and exits
with status 1. -/
theorem C85_unsupported_platform
    (h : platform ++ "-" ++ arch ∉ ["darwin-x64", "darwin-arm64", "linux-x64", "linux-arm64"]) :
    (Install.run sha256 checksums platform arch left es).pc = .exited 1 ∧
    (Install.run sha256 checksums platform arch left es).tarball = left ∧
    (Install.run sha256 checksums platform arch left es).unpacked = [] := by
  have hn : getTarget platform arch = none := by
    simp only [List.mem_cons, List.not_mem_nil, or_false, not_or] at h
    unfold getTarget
    simp [h]
  have stay : ∀ (es : List InstallEvent) (s : Install), s.pc = .exited 1 →
      es.foldl (Install.step sha256 ((getTarget platform arch).bind checksums)) s = s := by
    intro es
    induction es with
    | nil => intro s _; rfl
    | cons e es ih =>
      intro s hs
      have : s.step sha256 ((getTarget platform arch).bind checksums) e = s := by
        unfold Install.step; rw [hs]
      rw [List.foldl_cons, this]
      exact ih s hs
  have hs : (Install.start platform arch left).pc = .exited 1 := by
    unfold Install.start; simp [hn]
  unfold Install.run
  rw [stay es _ hs]
  exact ⟨hs, rfl, rfl⟩

/-- **C85.** A tarball with another digest, or for a platform without a listed digest, is removed, and
the script exits with status 1. -/
theorem C85_wrong_digest_is_refused {b : Bytes}
    (hc : (Install.run sha256 checksums platform arch left es).pc = .checking)
    (ht : (Install.run sha256 checksums platform arch left es).tarball = some b)
    (hd : (getTarget platform arch).bind checksums ≠ some (sha256 b)) :
    (Install.run sha256 checksums platform arch left (es ++ [.read true, .unlinked true])).pc
      = .exited 1 ∧
    (Install.run sha256 checksums platform arch left (es ++ [.read true, .unlinked true])).tarball
      = none ∧
    (Install.run sha256 checksums platform arch left (es ++ [.read true, .unlinked true])).unpacked
      = (Install.run sha256 checksums platform arch left es).unpacked := by
  unfold Install.run at hc ht ⊢
  rw [List.foldl_append]
  generalize List.foldl (Install.step sha256 ((getTarget platform arch).bind checksums))
    (Install.start platform arch left) es = s at hc ht
  have h1 : s.step sha256 ((getTarget platform arch).bind checksums) (.read true)
      = { s with pc := .discarding } := by
    unfold Install.step
    rw [hc]
    simp only
    cases hx : (getTarget platform arch).bind checksums with
    | none => rfl
    | some digest =>
      simp only [ht, if_true]
      split
      · rfl
      · split
        · rename_i e
          rw [hx, e] at hd
          exact absurd rfl hd
        · rfl
  simp only [List.foldl_cons, List.foldl_nil, h1]
  simp [Install.step]

/-! Examples: a stand-in for the digest; a successful installation with a redirect; a wrong tarball. -/

namespace Demo
/-- A stand-in for SHA-256. -/
def digest (b : Bytes) : String := if b = [1, 2, 3] then "d" else "other"
/-- A stand-in for `checksumConfig`. -/
def sums (t : String) : Option String := if t = "x86_64-unknown-linux-musl" then some "d" else none
/-- A redirect, a body in two parts, and everything after it goes well. -/
def goodInstall : List InstallEvent :=
  [.respond 302 true, .binDir true, .respond 200 true, .chunk [1], .chunk [2, 3], .finish, .read true,
    .tar 0, .chmod true, .unlinked true]
end Demo

/-- The hypotheses of C85 are met by a successful installation, which ends with status 0. -/
theorem C85_demo : Undisturbed Demo.goodInstall ∧
    Install.run Demo.digest Demo.sums "linux" "x64" none Demo.goodInstall
      = ⟨none, .resolved, .resolved, .over, 0, [[1, 2, 3]], true, .exited 0⟩ := by
  refine ⟨?_, by decide⟩
  intro e he b
  simp only [Demo.goodInstall, List.mem_cons, List.not_mem_nil, or_false] at he
  rcases he with rfl | rfl | rfl | rfl | rfl | rfl | rfl | rfl | rfl | rfl <;> simp

example : (Install.run Demo.digest Demo.sums "linux" "x64" none
    [.respond 200 true, .chunk [9], .finish, .binDir true]).pc = .checking := by decide

example : (Install.run Demo.digest Demo.sums "linux" "x64" none
    [.respond 200 true, .chunk [9], .finish, .binDir true, .read true, .unlinked true]).pc
    = .exited 1 := by decide

/-- A body that breaks off: the script ends with status 0, part of the tarball is left, and qlc is not
installed. -/
theorem C85_broken_download_witness : ∃ s, s = Install.run Demo.digest Demo.sums "linux" "x64" none
      [.respond 200 true, .chunk [1], .binDir true, .cutOff, .idle] ∧
    exitStatus s = some 0 ∧ ¬ Installed s ∧ s.tarball = some [1] := by
  refine ⟨_, rfl, by decide, ?_, by decide⟩
  rintro ⟨h, _⟩
  revert h
  decide

/-- Redirects are followed without end. -/
theorem C85_redirects_without_end (n : Nat) : (Install.run sha256 checksums "linux" "x64" left
    (List.replicate n (.respond 302 true))).pc = .downloading := by
  have h : ∀ n, Install.run sha256 checksums "linux" "x64" left
      (List.replicate n (.respond 302 true)) = Install.start "linux" "x64" left := by
    intro n
    unfold Install.run
    induction n with
    | zero => rfl
    | succ n ih =>
      rw [List.replicate_succ, List.foldl_cons]
      have : (Install.start "linux" "x64" left).step sha256
          ((getTarget "linux" "x64").bind checksums) (.respond 302 true)
          = Install.start "linux" "x64" left := by
        have e : Install.start "linux" "x64" left =
            ⟨left, .pending, .pending, .waiting, 0, [], false, .downloading⟩ := by
          unfold Install.start
          rw [if_pos (by decide)]
        rw [e]
        rfl
      rw [this]
      exact ih
  rw [h n]
  unfold Install.start
  rw [if_pos (by decide)]

/-- Between the check and `tar` another program can exchange the tarball. -/
theorem C85_meddling_witness : ∃ s, s = Install.run Demo.digest Demo.sums "linux" "x64" none
      [.respond 200 true, .chunk [1, 2, 3], .binDir true, .finish, .read true, .meddle [9], .tar 0] ∧
    s.unpacked = [[9]] ∧ Demo.sums "x86_64-unknown-linux-musl" ≠ some (Demo.digest [9]) :=
  ⟨_, rfl, by decide, by decide⟩

/-! ### C86 -/

/-- What holds at every point of a schema download that has seen the events `seen`. -/
def FetchInv (old : Option Bytes) (seen : FetchEvent → Prop) (s : Fetch) : Prop :=
  (s.opened = true → s.file = none ∨ s.file = some s.received) ∧
  (s.opened = false → s.received = [] ∧ (s.file = none ∨ s.file = old)) ∧
  (s.opened = true → seen (.opened true)) ∧
  match s.pc with
  | .waiting => s.received = [] ∧ (s.opened = true → s.file = some [])
  | .body | .broken => seen (.respond 200) ∧ (s.opened = true → s.file = some s.received) ∧
      (s.pc = .broken → seen .cutOff)
  | .cleaning => True
  | .exited 0 => seen (.respond 200) ∧ s.file = some s.received ∧ (seen .finish ∨ seen .cutOff)
  | .exited _ => True

theorem fetch_step {old : Option Bytes} {seen : FetchEvent → Prop} {s : Fetch} {e : FetchEvent}
    (h : FetchInv old seen s) : FetchInv old (fun e' => seen e' ∨ e' = e) (s.step e) := by
  obtain ⟨file, opened, received, pc⟩ := s
  unfold FetchInv at h ⊢
  cases pc with
  | exited c =>
    simp only [Fetch.step] at h ⊢
    refine ⟨h.1, h.2.1, fun a => .inl (h.2.2.1 a), ?_⟩
    have h4 := h.2.2.2
    split at h4 <;> first | trivial | skip
    all_goals simp_all
    tauto
  | _ =>
    cases e <;> cases opened <;> simp only [Fetch.step] at h ⊢ <;>
      (try split) <;> (try split) <;> simp_all <;> tauto

variable {endpoint : Option String} {urlOk : Bool} {old : Option Bytes} {fs : List FetchEvent}

theorem fetch_inv_imp {seen seen' : FetchEvent → Prop} {s : Fetch} (himp : ∀ e, seen e → seen' e)
    (h : FetchInv old seen s) : FetchInv old seen' s := by
  obtain ⟨h1, h2, h3, h4⟩ := h
  refine ⟨h1, h2, fun a => himp _ (h3 a), ?_⟩
  split at h4
  · exact h4
  · exact ⟨himp _ h4.1, h4.2.1, fun a => himp _ (h4.2.2 a)⟩
  · exact ⟨himp _ h4.1, h4.2.1, fun a => himp _ (h4.2.2 a)⟩
  · trivial
  · exact ⟨himp _ h4.1, h4.2.1, h4.2.2.imp (himp _) (himp _)⟩
  · trivial

theorem fetch_foldl : ∀ (fs : List FetchEvent) (seen : FetchEvent → Prop) (s : Fetch),
    FetchInv old seen s → FetchInv old (fun e => seen e ∨ e ∈ fs) (fs.foldl Fetch.step s) := by
  intro fs
  induction fs with
  | nil => intro seen s h; exact fetch_inv_imp (fun e he => .inl he) h
  | cons e fs ih =>
    intro seen s h
    refine fetch_inv_imp ?_ (ih _ _ (fetch_step (e := e) h))
    intro e' he'
    rcases he' with (h1 | h1) | h1
    · exact .inl h1
    · exact .inr (by simp [h1])
    · exact .inr (by simp [h1])

theorem fetch_run : FetchInv old (fun e => e ∈ fs) (Fetch.run endpoint urlOk old fs) := by
  have h0 : FetchInv old (fun _ => False) (Fetch.start endpoint urlOk old) := by
    unfold Fetch.start
    split
    · simp [FetchInv]
    · simp [FetchInv]
    · cases urlOk <;> simp [FetchInv]
  have := fetch_foldl fs _ _ h0
  unfold Fetch.run
  simpa using this

/-- **C86.** Without an endpoint nothing is touched and the status is 1. -/
theorem C86_endpoint_required (h : endpoint = none ∨ endpoint = some "") :
    Fetch.run endpoint urlOk old fs = ⟨old, false, [], .exited 1⟩ := by
  have hs : Fetch.start endpoint urlOk old = ⟨old, false, [], .exited 1⟩ := by
    rcases h with rfl | rfl <;> rfl
  have stay : ∀ fs : List FetchEvent,
      fs.foldl Fetch.step (⟨old, false, [], .exited 1⟩ : Fetch) = ⟨old, false, [], .exited 1⟩ := by
    intro fs
    induction fs with
    | nil => rfl
    | cons e fs ih => rw [List.foldl_cons]; exact ih
  unfold Fetch.run
  rw [hs]
  exact stay fs

/-- **C86.** Status 0 means that the server answered with status 200 and that the file holds what came of
the body; the body is complete unless the connection broke. -/
theorem C86_success (h : (Fetch.run endpoint urlOk old fs).pc = .exited 0) :
    .respond 200 ∈ fs ∧
    (Fetch.run endpoint urlOk old fs).file = some (Fetch.run endpoint urlOk old fs).received ∧
    (.finish ∈ fs ∨ .cutOff ∈ fs) := by
  have hi := fetch_run (endpoint := endpoint) (urlOk := urlOk) (old := old) (fs := fs)
  have h4 := hi.2.2.2
  rw [h] at h4
  exact h4

/-- **C86.** At every moment the file is gone, or holds what came of the new body, or, as long as it has
not been opened, still holds the old schema. -/
theorem C86_contents :
    (Fetch.run endpoint urlOk old fs).file = none ∨
    (Fetch.run endpoint urlOk old fs).file = some (Fetch.run endpoint urlOk old fs).received ∨
    ((Fetch.run endpoint urlOk old fs).opened = false ∧
      (Fetch.run endpoint urlOk old fs).file = old) := by
  have hi := fetch_run (endpoint := endpoint) (urlOk := urlOk) (old := old) (fs := fs)
  cases ho : (Fetch.run endpoint urlOk old fs).opened with
  | true => rcases hi.1 ho with h | h <;> simp [h]
  | false =>
    rcases (hi.2.1 ho).2 with h | h
    · exact .inl h
    · exact .inr (.inr ⟨rfl, h⟩)

/-- A failing request costs the schema that was downloaded before. -/
theorem C86_old_schema_lost_witness (e : String) (he : e ≠ "") (schema : Bytes) :
    Fetch.run (some e) true (some schema) [.opened true, .requestError, .unlinked true]
      = ⟨none, true, [], .exited 1⟩ ∧
    Fetch.run (some e) true (some schema) [.opened true, .respond 500, .unlinked true]
      = ⟨none, true, [], .exited 1⟩ := by
  have hs : Fetch.start (some e) true (some schema) = ⟨some schema, false, [], .waiting⟩ := by
    unfold Fetch.start
    split
    · simp_all
    · simp_all
    · rfl
  constructor <;> (unfold Fetch.run; rw [hs]; rfl)

/-- A body that breaks off leaves part of a schema, and the status is 0. -/
theorem C86_broken_download_witness :
    Fetch.run (some "https://x") true none
      [.opened true, .respond 200, .chunk [1, 2], .cutOff, .idle] = ⟨some [1, 2], true, [1, 2], .exited 0⟩ :=
  by decide

/-- A successful download meets the hypothesis of `C86_success`. -/
theorem C86_demo : Fetch.run (some "https://x") true (some [7])
    [.opened true, .respond 200, .chunk [1], .chunk [2], .finish]
      = ⟨some [1, 2], true, [1, 2], .exited 0⟩ := by decide

/-! ### C87 -/

/-- The type reference that the query brings back: at most `n` levels of `ofType`. -/
def cutRef : Nat → SrvRef → JFieldType
  | _, .named k n => .mk k (some n) none
  | 0, .list _ => .mk "LIST" none none
  | 0, .nonNull _ => .mk "NON_NULL" none none
  | n + 1, .list r => .mk "LIST" none (some (cutRef n r))
  | n + 1, .nonNull r => .mk "NON_NULL" none (some (cutRef n r))

theorem decode_ref : ∀ (n : Nat) (r : SrvRef),
    decodeFieldType (.obj (answers (askTypeRef n) (.ref r))) = some (cutRef n r) := by
  intro n
  induction n with
  | zero =>
    intro r
    cases r <;> simp [askTypeRef, answers, Node.get, decodeFieldType, decodeFieldTypeMembers, cutRef,
      Json.asStr, Json.asOption]
  | succ n ih =>
    intro r
    cases r with
    | named k m =>
      simp [askTypeRef, answers, Node.get, decodeFieldType, decodeFieldTypeMembers, cutRef,
        Json.asStr, Json.asOption]
    | list r =>
      have := ih r
      simp [askTypeRef, answers, Node.get, decodeFieldType, decodeFieldTypeMembers, cutRef,
        Json.asStr, Json.asOption] at this ⊢
      simp [this]
    | nonNull r =>
      have := ih r
      simp [askTypeRef, answers, Node.get, decodeFieldType, decodeFieldTypeMembers, cutRef,
        Json.asStr, Json.asOption] at this ⊢
      simp [this]

theorem allSome_map {α β γ : Type} (f : β → Option γ) (g : α → β) (h : α → γ)
    (hfg : ∀ a, f (g a) = some (h a)) (l : List α) : allSome f (l.map g) = some (l.map h) := by
  induction l with
  | nil => rfl
  | cons a l ih => simp [allSome, hfg, ih]

/-- What the query brings back about a field. -/
def cutField (name : String) (description : Option String) (r : SrvRef) : JField :=
  ⟨name, description, cutRef 7 r, none⟩

theorem decode_field (f : SrvField) :
    decodeField (.obj (answers [ask "name" [], ask "description" [], ask "args" askInputValue,
      ask "type" (askTypeRef 7)] (.field f))) = some (cutField f.name f.description f.type) := by
  have hr := decode_ref 7 f.type
  simp only [answers, Node.get, List.append_nil, List.cons_append, List.nil_append, decodeField,
    Json.asStruct, structMembers]
  cases hd : f.description <;>
    simp [AMap.get?, AMap.insert, needed, optional, Json.asStr, hr, Json.asOption, strOrNull, cutField]

theorem decode_input (i : SrvInput) :
    decodeField (.obj (answers askInputValue (.input i))) =
      some (cutField i.name i.description i.type) := by
  have hr := decode_ref 7 i.type
  simp only [askInputValue, answers, Node.get, List.append_nil, List.cons_append, List.nil_append,
    decodeField, Json.asStruct, structMembers]
  cases hd : i.description <;>
    simp [AMap.get?, AMap.insert, needed, optional, Json.asStr, hr, Json.asOption, strOrNull, cutField]

theorem decode_enumValue (v : SrvEnumValue) :
    decodeDescription (.obj (answers [ask "name" [], ask "description" []] (.enumValue v))) =
      some v.name := by
  simp [answers, Node.get, decodeDescription, Json.asStruct, structMembers, AMap.get?, AMap.insert,
    needed, Json.asStr]

theorem decode_possible (k n : String) :
    decodeDescription (.obj (answers (askTypeRef 7) (.ref (.named k n)))) = some n := by
  simp [askTypeRef, answers, Node.get, decodeDescription, Json.asStruct, structMembers, AMap.get?,
    AMap.insert, needed, Json.asStr]

/-- What the query brings back about a type. -/
def cutType (t : SrvType) : JType :=
  { kind := t.kind, name := t.name, description := t.description
    possibleTypes := t.possibleTypes
    inputFields := t.inputFields.map (fun l => l.map (fun i => cutField i.name i.description i.type))
    fields := t.fields.map (fun l => l.map (fun f => cutField f.name f.description f.type))
    enumValues := t.enumValues.map (fun l => l.map SrvEnumValue.name) }

theorem optional_many {α γ : Type} (f : Json → Option γ) (node : α → Node) (items : List Ask)
    (h : α → γ) (hf : ∀ a, f (.obj (answers items (node a))) = some (h a)) (l : Option (List α)) :
    optional (Json.asVec f) (some (match manyOrNull node l with
      | .leaf j => j
      | .null => .null
      | .one m => .obj (answers items m)
      | .many ms => .arr (ms.map (fun m => .obj (answers items m))))) =
      some (l.map (fun l => l.map h)) := by
  cases l with
  | none => rfl
  | some l =>
    simp only [manyOrNull, optional, Json.asOption, Json.asVec, List.map_map, Option.map_some]
    rw [allSome_map (h := h)]
    · rfl
    · intro a; exact hf a

theorem answers_many {α : Type} (field : String) (all : Bool) (items rest : List Ask) (n : Node) (node : α → Node)
    (l : Option (List α)) (h : n.get all field = some (manyOrNull node l)) :
    answers (.mk field all items :: rest) n = (field, match manyOrNull node l with
      | .leaf j => j
      | .null => .null
      | .one m => .obj (answers items m)
      | .many ms => .arr (ms.map (fun m => .obj (answers items m)))) :: answers rest n := by
  cases l <;> simp [answers, h, manyOrNull]

theorem answers_leaf (field : String) (items rest : List Ask) (n : Node) (j : Json)
    (h : n.get false field = some (.leaf j)) :
    answers (ask field items :: rest) n = (field, j) :: answers rest n := by
  simp [answers, h]

theorem decode_type (t : SrvType) :
    decodeType (.obj (answers askFullType (.type t))) = some (cutType t) := by
  have hfs : (Node.type t).get true "fields" = some (manyOrNull .field t.fields) := by
    cases h : t.fields <;> simp [Node.get, h, List.filter_true]
  have hes : (Node.type t).get true "enumValues" = some (manyOrNull .enumValue t.enumValues) := by
    cases h : t.enumValues <;> simp [Node.get, h, List.filter_true]
  unfold askFullType
  rw [answers_leaf "kind" _ _ (.type t) (.str t.kind) rfl,
    answers_leaf "name" _ _ (.type t) (.str t.name) rfl,
    answers_leaf "description" _ _ (.type t) (strOrNull t.description) rfl,
    answers_many "fields" true _ _ (.type t) .field t.fields hfs,
    answers_many "inputFields" false _ _ (.type t) .input t.inputFields rfl,
    answers_many "interfaces" false _ _ (.type t) (fun n => .ref (.named "INTERFACE" n)) t.interfaces rfl,
    answers_many "enumValues" true _ _ (.type t) .enumValue t.enumValues hes,
    answers_many "possibleTypes" false _ _ (.type t) (fun n => .ref (.named "OBJECT" n)) t.possibleTypes rfl]
  have h1 := optional_many decodeField .field _ _ decode_field t.fields
  have h2 := optional_many decodeField .input _ _ decode_input t.inputFields
  have h3 := optional_many decodeDescription .enumValue _ _ decode_enumValue t.enumValues
  have h4 := optional_many decodeDescription (fun n => Node.ref (.named "OBJECT" n)) _ id
    (fun n => decode_possible "OBJECT" n) t.possibleTypes
  have h5 : optional Json.asStr (some (strOrNull t.description)) = some t.description := by
    cases t.description <;> rfl
  generalize (match manyOrNull Node.field t.fields with
      | .leaf j => j
      | .null => .null
      | .one m => _
      | .many ms => _) = x1 at h1 ⊢
  generalize (match manyOrNull Node.input t.inputFields with
      | .leaf j => j
      | .null => .null
      | .one m => _
      | .many ms => _) = x2 at h2 ⊢
  generalize (match manyOrNull Node.enumValue t.enumValues with
      | .leaf j => j
      | .null => .null
      | .one m => _
      | .many ms => _) = x3 at h3 ⊢
  generalize (match manyOrNull (fun n => Node.ref (.named "OBJECT" n)) t.possibleTypes with
      | .leaf j => j
      | .null => .null
      | .one m => _
      | .many ms => _) = x4 at h4 ⊢
  generalize strOrNull t.description = x5 at h5 ⊢
  simp only [answers, decodeType, Json.asStruct, structMembers]
  simp [AMap.get?, AMap.insert, needed, Json.asStr, h1, h2, h3, h4, h5, cutType]

/-- The document that the query brings back. -/
def cutDocument (srv : Server) : JSchema := ⟨srv.types.map cutType⟩

theorem decode_answer (srv : Server) :
    decodeIntrospection (srv.answer introspectionQuery) = some (cutDocument srv) := by
  have ht : allSome decodeType ((srv.types.map Node.type).map
      (fun m => .obj (answers askFullType m))) = some (srv.types.map cutType) := by
    rw [List.map_map]
    exact allSome_map _ _ _ decode_type _
  unfold Server.answer introspectionQuery
  cases hm : srv.mutationType <;> cases hs : srv.subscriptionType <;>
    simp [answers, Node.get, hm, hs, decodeIntrospection, Json.asStruct, structMembers, AMap.get?,
      AMap.insert, needed, decodeSchema, Json.asVec] <;>
    simpa [cutDocument] using ht

theorem cutRef_shallow : ∀ (n : Nat) (r : SrvRef), r.wrappers ≤ n → cutRef n r = r.document := by
  intro n
  induction n with
  | zero => intro r h; cases r <;> simp_all [cutRef, SrvRef.wrappers, SrvRef.document]
  | succ n ih =>
    intro r h
    cases r with
    | named k m => rfl
    | list r => simp only [cutRef, SrvRef.document]; rw [ih r (by simpa [SrvRef.wrappers] using h)]
    | nonNull r => simp only [cutRef, SrvRef.document]; rw [ih r (by simpa [SrvRef.wrappers] using h)]

/-- A reference comes back usable exactly if it was not cut off. -/
theorem cutRef_ok : ∀ (n : Nat) (r : SrvRef), NamedKind r.kind → (RefOk (cutRef n r) ↔ r.wrappers ≤ n) := by
  intro n
  induction n with
  | zero =>
    intro r hk
    cases r with
    | named k m => exact ⟨fun _ => Nat.le_refl _, fun _ => .named k m none hk⟩
    | list r =>
      refine ⟨fun h => ?_, fun h => by simp [SrvRef.wrappers] at h⟩
      simp only [cutRef] at h
      cases h
    | nonNull r =>
      refine ⟨fun h => ?_, fun h => by simp [SrvRef.wrappers] at h⟩
      simp only [cutRef] at h
      cases h
  | succ n ih =>
    intro r hk
    cases r with
    | named k m => exact ⟨fun _ => Nat.zero_le _, fun _ => .named k m none hk⟩
    | list r =>
      rw [SrvRef.wrappers, Nat.add_le_add_iff_right, ← ih r hk]
      refine ⟨fun h => ?_, fun h => .wrapper _ _ _ (.inl rfl) h⟩
      simp only [cutRef] at h
      cases h
      assumption
    | nonNull r =>
      rw [SrvRef.wrappers, Nat.add_le_add_iff_right, ← ih r hk]
      refine ⟨fun h => ?_, fun h => .wrapper _ _ _ (.inr rfl) h⟩
      simp only [cutRef] at h
      cases h
      assumption

/-- If no type is wrapped more than seven times, what is downloaded is what the server says about itself,
except that nothing is said about deprecation. -/
theorem C87_downloaded_document (srv : Server) (h : srv.Shallow) :
    decodeIntrospection (srv.answer introspectionQuery) = some (srv.document (fun _ => none)) := by
  rw [decode_answer]
  unfold cutDocument Server.document
  congr 2
  apply List.map_congr_left
  intro t ht
  obtain ⟨h1, h2⟩ := h t ht
  unfold cutType SrvType.document
  congr 1
  · cases hi : t.inputFields with
    | none => rfl
    | some is =>
      simp only [Option.map_some, Option.some.injEq]
      apply List.map_congr_left
      intro i hm
      simp only [cutField]
      rw [cutRef_shallow 7 i.type (h2 is hi i hm)]
  · cases hi : t.fields with
    | none => rfl
    | some fs =>
      simp only [Option.map_some, Option.some.injEq]
      apply List.map_congr_left
      intro f hm
      simp only [cutField]
      rw [cutRef_shallow 7 f.type (h1 fs hi f hm)]

theorem cutType_ok (t : SrvType) (h : t.Legal) : TypeOk (cutType t) ↔
    (∀ fs, t.fields = some fs → ∀ f ∈ fs, f.type.wrappers ≤ 7) ∧
    (∀ is, t.inputFields = some is → ∀ i ∈ is, i.type.wrappers ≤ 7) := by
  have hF : ∀ fs, t.fields = some fs →
      (FieldsOk (fs.map (fun f => cutField f.name f.description f.type)) ↔
        ∀ f ∈ fs, f.type.wrappers ≤ 7) := by
    intro fs hfs
    constructor
    · intro ho f hm
      exact (cutRef_ok 7 f.type (h.fieldKinds fs hfs f hm)).1 (ho _ (List.mem_map_of_mem hm))
    · intro hw j hj
      obtain ⟨f, hm, rfl⟩ := List.mem_map.1 hj
      exact (cutRef_ok 7 f.type (h.fieldKinds fs hfs f hm)).2 (hw f hm)
  have hI : ∀ is, t.inputFields = some is →
      (FieldsOk (is.map (fun i => cutField i.name i.description i.type)) ↔
        ∀ i ∈ is, i.type.wrappers ≤ 7) := by
    intro is his
    constructor
    · intro ho i hm
      exact (cutRef_ok 7 i.type (h.inputKinds is his i hm)).1 (ho _ (List.mem_map_of_mem hm))
    · intro hw j hj
      obtain ⟨i, hm, rfl⟩ := List.mem_map.1 hj
      exact (cutRef_ok 7 i.type (h.inputKinds is his i hm)).2 (hw i hm)
  have hk := h.kind
  have h1 := h.fields
  have h2 := h.possibleTypes
  have h3 := h.enumValues
  have h4 := h.inputFields
  simp only [NamedKind, List.mem_cons, List.not_mem_nil, or_false] at hk
  unfold TypeOk cutType
  rcases hk with hk | hk | hk | hk | hk | hk <;> simp only [hk] at h1 h2 h3 h4 ⊢ <;>
    cases hfs : t.fields <;> cases his : t.inputFields <;> cases hps : t.possibleTypes <;>
    cases hes : t.enumValues <;> simp_all

/-- The downloaded schema can be loaded exactly if no type of a field is wrapped more than seven times. -/
theorem C87_loads_iff_shallow (srv : Server) (h : srv.Legal) :
    (∃ doc schema, decodeIntrospection (srv.answer introspectionQuery) = some doc ∧
      Schema.ofJson doc = .ok schema) ↔ srv.Shallow := by
  rw [decode_answer]
  have := C04_schema_loads_iff_well_described (cutDocument srv)
  constructor
  · rintro ⟨doc, schema, hd, hs⟩
    cases hd
    intro t ht
    exact (cutType_ok t (h t ht)).1 (this.1 ⟨schema, hs⟩ _ (List.mem_map_of_mem ht))
  · intro hs
    have : ∃ s, Schema.ofJson (cutDocument srv) = .ok s := by
      refine this.2 ?_
      intro j hj
      obtain ⟨t, ht, rfl⟩ := List.mem_map.1 hj
      exact (cutType_ok t (h t ht)).2 (hs t ht)
    obtain ⟨s, hs⟩ := this
    exact ⟨_, s, rfl, hs⟩

/-- No field of a downloaded schema is deprecated, whatever the server says. -/
theorem downloaded_undeprecated (srv : Server) (doc : JSchema) (schema : Schema)
    (hd : decodeIntrospection (srv.answer introspectionQuery) = some doc)
    (hs : Schema.ofJson doc = .ok schema) (P name : String) (f : SField)
    (hf : fieldOf schema P name = some f) : f.deprecated = false := by
  rw [decode_answer] at hd
  cases hd
  have key : ∀ (fs : Option (List SrvField)) (js : List JField) (extra : String → Option SField)
      (m : FieldsLookup), fs.map (fun l => l.map (fun f => cutField f.name f.description f.type)) = some js →
      FieldsOfJson js onlyTypename m → AMap.get? m name = some f → f.deprecated = false := by
    intro fs js _ m hjs hm hg
    have hn := hm name
    cases hl : lastNamed JField.name name js with
    | none =>
      rw [hl] at hn
      simp only [hg, onlyTypename] at hn
      split at hn
      · cases hn; rfl
      · cases hn
    | some j =>
      rw [hl] at hn
      obtain ⟨f', hf', hj⟩ := hn
      rw [hg] at hf'
      cases hf'
      have hmem : j ∈ js := List.mem_of_mem_filter (List.mem_of_getLast? hl)
      cases fs with
      | none => cases hjs
      | some l =>
        simp only [Option.map_some, Option.some.injEq] at hjs
        subst hjs
        obtain ⟨g, _, rfl⟩ := List.mem_map.1 hmem
        rw [hj.deprecated]
        rfl
  have h5 := C05_lookup_returns_what_the_document_says _ schema hs P
  unfold fieldOf fieldsOf at hf
  cases hl : lastNamed JType.name P (cutDocument srv).types with
  | none =>
    rw [hl] at h5
    simp only [h5, Option.bind_none] at hf
    cases hf
  | some j =>
    rw [hl] at h5
    obtain ⟨st, hst, _, hdef⟩ := h5
    have hmem : j ∈ (cutDocument srv).types := List.mem_of_mem_filter (List.mem_of_getLast? hl)
    obtain ⟨t, _, rfl⟩ := List.mem_map.1 hmem
    simp only [hst] at hf
    generalize st.definition = D at hdef hf
    cases hdef with
    | object fs m _ hfs hm => exact key t.fields fs onlyTypename m hfs hm hf
    | interface fs ps m _ hfs _ hm => exact key t.fields fs onlyTypename m hfs hm hf
    | union ps m _ _ hm => exact key (some []) [] onlyTypename m rfl hm hf
    | inputObject => cases hf
    | enum => cases hf
    | scalar => cases hf

mutual
theorem unwarnedSel {schema : Schema} {frags : Frags}
    (h : ∀ P name f, fieldOf schema P name = some f → f.deprecated = false) (P : String) :
    ∀ s : Selection, warnedUsesSel schema frags P s = []
  | .field pos al name args dirs items => by
    unfold warnedUsesSel
    cases hf : fieldOf schema P name with
    | none => rfl
    | some f =>
      simp only [h P name f hf, Bool.false_and, Bool.false_eq_true, if_false, List.append_nil]
      split
      · exact unwarned h _ items
      · rfl
  | .inline _ none _ _ => by unfold warnedUsesSel; rfl
  | .inline _ (some C) _ items => by
    unfold warnedUsesSel
    split
    · exact unwarned h C items
    · rfl
  | .spread .. => by unfold warnedUsesSel; rfl
theorem unwarned {schema : Schema} {frags : Frags}
    (h : ∀ P name f, fieldOf schema P name = some f → f.deprecated = false) (P : String) :
    ∀ l : List Selection, warnedUses schema frags P l = []
  | [] => by unfold warnedUses; rfl
  | s :: rest => by
    unfold warnedUses
    rw [unwarnedSel h P s, unwarned h P rest]
    rfl
end

/-- With a downloaded schema nobody is ever warned about a deprecated field, even if they ask for it
(`--show-deprecation-warnings`) and whatever the server deprecates: the query does not ask. -/
theorem C87_never_warned_about_deprecation (srv : Server) (doc : JSchema)
    (hd : decodeIntrospection (srv.answer introspectionQuery) = some doc) (hv : ValidDoc doc)
    (schema : Schema) (hs : Schema.ofJson doc = .ok schema) (ω : Hash) (fuel : Nat)
    (showDep : Bool) (frags : Frags) (d : Definition) (r : Except (List IrError) Operation)
    (ws : List Warning) (P : String) (hP : rootType d = some P)
    (h : Operation.compile ω fuel ⟨schema, showDep, frags⟩ d = some (r, ws)) :
    deprecations ws = [] := by
  have hcon := loaded_consistent hv hs
  have hu := downloaded_undeprecated srv _ schema hd hs
  by_cases hc : IsComposite schema P
  · rw [C15_deprecation_warnings_of_any_definition ω fuel showDep hcon d r ws P hP hc h]
    split
    · exact unwarned hu P _
    · rfl
  · rcases compile_spec ω fuel showDep hcon d r ws P hP h with ⟨_, _, hw⟩ | ⟨h1, _⟩
    · rw [hw]; rfl
    · exact absurd h1 hc

/-- The name of the server's query type is downloaded but not used: unless there is an object type,
interface or union called `Query`, no query compiles. -/
theorem C87_query_type_must_be_called_query (srv : Server) (doc : JSchema)
    (hd : decodeIntrospection (srv.answer introspectionQuery) = some doc) (hv : ValidDoc doc)
    (schema : Schema) (hs : Schema.ofJson doc = .ok schema)
    (hq : ∀ t ∈ srv.types, t.name ≠ "Query") (ω : Hash) (fuel : Nat)
    (showDep : Bool) (frags : Frags) (d : Definition) (r : Except (List IrError) Operation)
    (ws : List Warning) (hP : rootType d = some "Query")
    (h : Operation.compile ω fuel ⟨schema, showDep, frags⟩ d = some (r, ws)) :
    ∃ e, r = .error e := by
  have hcon := loaded_consistent hv hs
  rcases compile_spec ω fuel showDep hcon d r ws "Query" hP h with ⟨_, ⟨_, _, hr⟩, _⟩ | ⟨h1, _⟩
  · exact ⟨_, hr⟩
  · have h5 := C05_lookup_returns_what_the_document_says _ schema hs "Query"
    rw [decode_answer] at hd
    cases hd
    cases hl : lastNamed JType.name "Query" (cutDocument srv).types with
    | none =>
      rw [hl] at h5
      simp only at h5
      simp [IsComposite, fieldsOf, h5] at h1
    | some j =>
      have hm := List.mem_filter.1 (List.mem_of_getLast? hl)
      obtain ⟨t, ht, rfl⟩ := List.mem_map.1 hm.1
      exact absurd (of_decide_eq_true hm.2) (hq t ht)

/-- A server with a deprecated field and a field of type `[Int!]!`. -/
def Demo.server : Server :=
  { queryType := "Query", mutationType := none, subscriptionType := none
    types := [
      { kind := "OBJECT", name := "Query", description := some "root"
        fields := some [
          ⟨"old", none, [⟨"at", none, .named "SCALAR" "Int", some "3"⟩], .named "SCALAR" "Int", true⟩,
          ⟨"new", none, [], .nonNull (.list (.nonNull (.named "SCALAR" "Int"))), false⟩,
          ⟨"color", none, [], .named "ENUM" "Color", false⟩]
        inputFields := none, interfaces := some [], enumValues := none, possibleTypes := none },
      { kind := "SCALAR", name := "Int", description := none, fields := none, inputFields := none
        interfaces := none, enumValues := none, possibleTypes := none },
      { kind := "ENUM", name := "Color", description := none, fields := none, inputFields := none
        interfaces := none, enumValues := some [⟨"RED", none, false⟩, ⟨"GREY", none, true⟩]
        possibleTypes := none }] }

/-- `query Q { old }` -/
def Demo.usesOld : Definition :=
  .operation .query ⟨1, 1⟩ (some "Q") [] [] [.field ⟨1, 11⟩ none "old" [] [] []]

/-- The warnings of compiling a definition with deprecation warnings turned on. -/
def Demo.warnsAbout (doc : JSchema) (d : Definition) : Option (Bool × List (Pos × String × String)) :=
  match Schema.ofJson doc with
  | .error _ => none
  | .ok s => (Operation.compile .inOrder 100 ⟨s, true, []⟩ d).map
      (fun r => (match r.1 with | .ok _ => true | .error _ => false, deprecations r.2))

/-- The server is legal and shallow, its schema is valid, an operation that uses its deprecated field
compiles, and there is no warning.  There would be one if the document said what the server says. -/
theorem C87_no_warning_demo :
    Demo.server.Legal ∧ Demo.server.Shallow ∧ ValidDoc (Demo.server.document (fun _ => none)) ∧
    Demo.warnsAbout (Demo.server.document (fun _ => none)) Demo.usesOld = some (true, []) ∧
    Demo.warnsAbout (Demo.server.document some) Demo.usesOld =
      some (true, [(⟨1, 11⟩, "old", "Query")]) := by
  refine ⟨?_, ?_, validDocB_sound (by decide +kernel), by decide +kernel, by decide +kernel⟩
  · intro t ht
    simp only [Demo.server, List.mem_cons, List.not_mem_nil, or_false] at ht
    rcases ht with rfl | rfl | rfl <;> constructor <;> simp [NamedKind, SrvRef.kind]
  · intro t ht
    simp only [Demo.server, List.mem_cons, List.not_mem_nil, or_false] at ht
    rcases ht with rfl | rfl | rfl <;> constructor <;> simp [SrvRef.wrappers]

/-- Both values of the enum arrive, also the deprecated one. -/
example : ((decodeIntrospection (Demo.server.answer introspectionQuery)).map
    (fun d => d.types.map JType.enumValues)) = some [none, none, some ["RED", "GREY"]] := by
  rw [decode_answer]
  rfl

/-- A reference with `n` lists around it. -/
def Demo.lists : Nat → SrvRef
  | 0 => .named "SCALAR" "Int"
  | n + 1 => .list (Demo.lists n)

/-- A server with one field, whose type is that reference. -/
def Demo.deepServer (n : Nat) : Server :=
  { queryType := "Root", mutationType := none, subscriptionType := none
    types := [
      { kind := "OBJECT", name := "Root", description := none
        fields := some [⟨"deep", none, [], Demo.lists n, false⟩]
        inputFields := none, interfaces := some [], enumValues := none, possibleTypes := none },
      { kind := "SCALAR", name := "Int", description := none, fields := none, inputFields := none
        interfaces := none, enumValues := none, possibleTypes := none }] }

theorem lists_kind (n : Nat) : (Demo.lists n).kind = "SCALAR" := by
  induction n with
  | zero => rfl
  | succ n ih => simpa [Demo.lists, SrvRef.kind] using ih

theorem lists_wrappers (n : Nat) : (Demo.lists n).wrappers = n := by
  induction n with
  | zero => rfl
  | succ n ih => simpa [Demo.lists, SrvRef.wrappers] using ih

/-- The server below is legal however deep its type is, so its schema loads up to seven lists and not
with more. -/
theorem C87_too_deep_witness (n : Nat) :
    (Demo.deepServer n).Legal ∧
    ((∃ doc schema, decodeIntrospection ((Demo.deepServer n).answer introspectionQuery) = some doc ∧
      Schema.ofJson doc = .ok schema) ↔ n ≤ 7) := by
  have hl : (Demo.deepServer n).Legal := by
    intro t ht
    simp only [Demo.deepServer, List.mem_cons, List.not_mem_nil, or_false] at ht
    rcases ht with rfl | rfl <;> constructor <;> simp [NamedKind, lists_kind]
  refine ⟨hl, ?_⟩
  rw [C87_loads_iff_shallow _ hl]
  unfold Server.Shallow
  simp [Demo.deepServer, lists_wrappers]

/-- Its query type is called `Root`, so its schema loads and is valid but no query compiles. -/
theorem C87_other_query_type_witness :
    ValidDoc ((Demo.deepServer 1).document (fun _ => none)) ∧
    Demo.warnsAbout ((Demo.deepServer 1).document (fun _ => none))
      (.operation .query ⟨1, 1⟩ (some "Q") [] [] [.field ⟨1, 11⟩ none "deep" [] [] []]) =
      some (false, []) :=
  ⟨validDocB_sound (by decide +kernel), by decide +kernel⟩

end Qlc
