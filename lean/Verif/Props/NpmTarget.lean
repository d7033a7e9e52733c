import Verif.Props.Npm
/-
C85: the binary is that of the platform, and success means that `tar` succeeded.
-/
set_option autoImplicit false
namespace Qlc
open Spec

/-- Is `tar` through? -/
def afterTar : InstallPc → Bool
  | .finishing _ _ => true
  | .exited c => c == 0
  | _ => false

theorem settle_afterTar (s : Install) (h : afterTar s.settle.pc = true) : afterTar s.pc = true := by
  unfold Install.settle Install.await at h
  cases hpc : s.pc with
  | downloading =>
    rw [hpc] at h
    simp only at h
    split at h
    · cases h
    · split at h
      · cases h
      · rw [hpc] at h
        cases h
  | _ => rw [hpc] at h; simpa [hpc] using h

theorem step_afterTar (sha256 : Bytes → String) (expected : Option String) (s : Install) (e : InstallEvent)
    (h : afterTar (s.step sha256 expected e).pc = true) : afterTar s.pc = true ∨ e = .tar 0 := by
  by_cases hs : afterTar s.pc = true
  · exact .inl hs
  · right
    cases e with
    | tar code =>
      unfold Install.step at h
      cases hpc : s.pc with
      | unpacking =>
        simp only [hpc] at h
        split at h
        · cases h
        · split at h
          · rename_i hc
            rw [hc]
          · cases h
      | _ => simp [hpc, afterTar] at h hs; try (exact absurd h hs)
    | _ =>
      exfalso
      unfold Install.step at h
      cases hpc : s.pc with
      | finishing u c => exact hs (by rw [hpc]; rfl)
      | exited c => rw [hpc] at hs; simp [hpc] at h; exact hs h
      | _ =>
        simp only [hpc] at h
        repeat' split at h
        all_goals first
          | (have h := settle_afterTar _ h; simp [afterTar] at h)
          | simp [afterTar, hpc, Install.cleanup] at h

/-- C85: exit status 0 after unpacking means that `tar` ended with status 0. -/
theorem C85_success_means_tar_succeeded (sha256 : Bytes → String) (checksums : String → Option String)
    (platform arch : String) (left : Option Bytes) (es : List InstallEvent)
    (hx : (Install.run sha256 checksums platform arch left es).pc = .exited 0) : .tar 0 ∈ es := by
  have key : ∀ (es : List InstallEvent) (s : Install), afterTar s.pc = false →
      afterTar (es.foldl (Install.step sha256 ((getTarget platform arch).bind checksums)) s).pc = true →
      .tar 0 ∈ es := by
    intro es
    induction es with
    | nil =>
      intro s hs h
      rw [List.foldl_nil, hs] at h
      cases h
    | cons e es ih =>
      intro s hs h
      cases hn : afterTar (s.step sha256 ((getTarget platform arch).bind checksums) e).pc with
      | true =>
        rcases step_afterTar _ _ s e hn with h' | h'
        · rw [hs] at h'
          cases h'
        · rw [h']
          exact List.mem_cons_self ..
      | false => exact List.mem_cons_of_mem _ (ih _ hn h)
  refine key es (Install.start platform arch left) ?_ ?_
  · unfold Install.start
    split <;> rfl
  · change afterTar (Install.run sha256 checksums platform arch left es).pc = true
    rw [hx]
    rfl

example : (Install.run Demo.digest Demo.sums "linux" "x64" none Demo.goodInstall).pc = .exited 0 ∧
    .tar 0 ∈ Demo.goodInstall := ⟨by rw [C85_demo.2], by decide⟩

theorem one_dash {x y c d : List Char} (hc : '-' ∉ c) (hd : '-' ∉ d)
    (h : x ++ '-' :: y = c ++ '-' :: d) : x = c ∧ y = d := by
  rcases List.append_eq_append_iff.1 h with ⟨z, h1, h2⟩ | ⟨z, h1, h2⟩
  · cases z with
    | nil => simp at h1 h2; exact ⟨h1.symm, h2⟩
    | cons a z =>
      simp only [List.cons_append, List.cons.injEq] at h2
      rw [h1, ← h2.1] at hc
      exact absurd (by simp) hc
  · cases z with
    | nil => simp at h1 h2; exact ⟨h1, h2.symm⟩
    | cons a z =>
      simp only [List.cons_append, List.cons.injEq] at h2
      rw [h2.2] at hd
      exact absurd (by simp) hd

theorem id_eq (p a c d : String) (hc : '-' ∉ c.toList) (hd : '-' ∉ d.toList) :
    p ++ "-" ++ a = c ++ "-" ++ d ↔ p = c ∧ a = d := by
  constructor
  · intro h
    have h := congrArg String.toList h
    simp only [String.toList_append, List.append_assoc] at h
    obtain ⟨h1, h2⟩ := one_dash hc hd (by simpa using h)
    exact ⟨String.toList_injective h1, String.toList_injective h2⟩
  · rintro ⟨rfl, rfl⟩
    rfl

/-- C85: the release that is downloaded is the one for the machine: its name is that of the processor,
then that of the system; on any other machine there is none. -/
theorem C85_platform_target (platform arch target : String) : getTarget platform arch = some target ↔
    ∃ cpu system, cpuName arch = some cpu ∧ systemName platform = some system ∧
      target = cpu ++ "-" ++ system := by
  have e1 : platform ++ "-" ++ arch = "darwin-x64" ↔ platform = "darwin" ∧ arch = "x64" :=
    id_eq platform arch "darwin" "x64" (by decide) (by decide)
  have e2 : platform ++ "-" ++ arch = "darwin-arm64" ↔ platform = "darwin" ∧ arch = "arm64" :=
    id_eq platform arch "darwin" "arm64" (by decide) (by decide)
  have e3 : platform ++ "-" ++ arch = "linux-x64" ↔ platform = "linux" ∧ arch = "x64" :=
    id_eq platform arch "linux" "x64" (by decide) (by decide)
  have e4 : platform ++ "-" ++ arch = "linux-arm64" ↔ platform = "linux" ∧ arch = "arm64" :=
    id_eq platform arch "linux" "arm64" (by decide) (by decide)
  unfold getTarget
  simp only [e1, e2, e3, e4]
  by_cases hp : platform = "darwin"
  · subst hp
    by_cases ha : arch = "x64"
    · subst ha; simp [cpuName, systemName, eq_comm]
    · by_cases hb : arch = "arm64"
      · subst hb; simp [cpuName, systemName, eq_comm]
      · simp [cpuName, systemName, ha, hb]
  · by_cases hq : platform = "linux"
    · subst hq
      by_cases ha : arch = "x64"
      · subst ha; simp [cpuName, systemName, eq_comm]
      · by_cases hb : arch = "arm64"
        · subst hb; simp [cpuName, systemName, eq_comm]
        · simp [cpuName, systemName, ha, hb]
    · simp [systemName, hp, hq]

example : getTarget "linux" "arm64" = some "aarch64-unknown-linux-musl" ∧ getTarget "win32" "x64" = none := by
  decide

end Qlc
