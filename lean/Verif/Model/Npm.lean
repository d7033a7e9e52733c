import Verif.Model.Json
/-
Model of the npm package's scripts: pkg/npm/lib/postinstall.js and pkg/npm/lib/download.js.  Both are
event driven.  A run is a list of events that the surroundings (network, file system, `tar`) cause; an
event that cannot occur in a state changes nothing.  Every prefix of a run is a run, so a theorem about
all runs also covers being killed at any point.
-/
set_option autoImplicit false

namespace Qlc

/-- The contents of a file. -/
abbrev Bytes := List UInt8

/-- postinstall.js:18-32 `getTarget`; `none` is the thrown error. -/
def getTarget (platform arch : String) : Option String :=
  let id := platform ++ "-" ++ arch
  if id = "darwin-x64" then some "x86_64-apple-darwin"
  else if id = "darwin-arm64" then some "aarch64-apple-darwin"
  else if id = "linux-x64" then some "x86_64-unknown-linux-musl"
  else if id = "linux-arm64" then some "aarch64-unknown-linux-musl"
  else none

/-- A promise. -/
inductive Settled where
  | pending | resolved | rejected
  deriving DecidableEq, Repr

/-- Only the first settlement of a promise counts. -/
def Settled.resolve : Settled → Settled
  | .pending => .resolved
  | s => s

/-- As `resolve`. -/
def Settled.reject : Settled → Settled
  | .pending => .rejected
  | s => s

/-- postinstall.js:34-64: the newest request.  A redirect starts the next request inside the callback
of the one before, so earlier requests were all answered. -/
inductive Request where
  /-- Sent, not answered. -/
  | waiting
  /-- Answered with status 200; the body is being piped to the file. -/
  | body
  /-- Nothing more comes from it. -/
  | over
  deriving DecidableEq, Repr

/-- postinstall.js:94-120: where `main` is. -/
inductive InstallPc where
  /-- Lines 98-101: waiting for the directory and the download. -/
  | downloading
  /-- Line 103: inside `checksum`. -/
  | checking
  /-- Line 105: removing a tarball that failed the check. -/
  | discarding
  /-- Line 108: `tar` runs. -/
  | unpacking
  /-- Lines 109-112; the flags say what is done. -/
  | finishing (unlinked chmodded : Bool)
  /-- Lines 116 and 119 `process.exit`. -/
  | exited (code : Nat)
  /-- Nothing is left to wait for although `main` has not settled: Node exits with status 0. -/
  | drained
  deriving DecidableEq, Repr

/-- The state of an installation. -/
structure Install where
  /-- The file `tarballFileName` in the current directory. -/
  tarball : Option Bytes
  /-- Line 99. -/
  binDir : Settled
  /-- The promise of line 100: it settles as soon as any promise of the redirect chain fails, or the
  newest one succeeds. -/
  download : Settled
  request : Request
  /-- Calls of `cleanup` (lines 36-41) whose `unlink` has not returned. -/
  cleanups : Nat
  /-- Ghost: the contents that were handed to `tar`. -/
  unpacked : List Bytes
  /-- `bin/qlc` was made executable (line 111). -/
  executable : Bool
  pc : InstallPc
  deriving DecidableEq, Repr

/-- What can happen during an installation. -/
inductive InstallEvent where
  /-- `access`/`mkdir` of line 99 returned. -/
  | binDir (ok : Bool)
  /-- The newest request was answered with this status; `location` says whether the answer has a
  `Location` header that `https` accepts. -/
  | respond (status : Nat) (location : Bool)
  /-- Part of the body was written to the file. -/
  | chunk (bytes : Bytes)
  /-- The body ended and was written. -/
  | finish
  /-- The connection broke after the answer had begun. -/
  | cutOff
  /-- Writing the file failed; the stream has no `error` handler, so Node exits with status 1. -/
  | writeError
  /-- The newest request failed before it was answered. -/
  | requestError
  /-- A request reported an error after it was answered. -/
  | lateError
  /-- The `unlink` of a `cleanup` returned. -/
  | cleanedUp (ok : Bool)
  /-- `readFile` of line 84 returned. -/
  | read (ok : Bool)
  /-- `unlink` of line 105 or 110 returned. -/
  | unlinked (ok : Bool)
  /-- `tar` could not be started. -/
  | noTar
  /-- `tar` read the tarball and exited with this code (never 0 if there is no tarball). -/
  | tar (code : Nat)
  /-- `chmod` of line 111 returned. -/
  | chmod (ok : Bool)
  /-- Node finds nothing left to wait for. -/
  | idle
  /-- Another program wrote the tarball. -/
  | meddle (bytes : Bytes)
  deriving DecidableEq, Repr

/-- Lines 98-101: `Promise.all` fails with the first failure and succeeds with the last success. -/
def Install.await (s : Install) : Install :=
  if s.binDir = .rejected ∨ s.download = .rejected then { s with pc := .exited 1 }
  else if s.binDir = .resolved ∧ s.download = .resolved then { s with pc := .checking }
  else s

/-- Lines 111-116: `Promise.all` and exit. -/
def Install.finishing (s : Install) (unlinked chmodded : Bool) : Install :=
  if unlinked && chmodded then { s with pc := .exited 0 }
  else { s with pc := .finishing unlinked chmodded }

/-- Go on if `main` waits for the download. -/
def Install.settle (s : Install) : Install :=
  match s.pc with
  | .downloading => s.await
  | _ => s

/-- Lines 36-41 `cleanup`, up to its `unlink`. -/
def Install.cleanup (s : Install) : Install := { s with cleanups := s.cleanups + 1 }

/-- postinstall.js:34-120: one event.  `expected` is `CHECKSUMS[target]`. -/
def Install.step (sha256 : Bytes → String) (expected : Option String) (s : Install)
    (e : InstallEvent) : Install :=
  match s.pc with
  | .exited _ | .drained => s
  | pc =>
    match e with
    | .meddle b => { s with tarball := some b }
    | .binDir ok =>
      if s.binDir = .pending then
        Install.settle { s with binDir := if ok then .resolved else .rejected }
      else s
    | .respond status location =>
      if s.request = .waiting then
        if status = 200 then { s with request := .body, tarball := some [] }
        else if status = 302 then
          if location then s
          else Install.settle { s with request := .over, download := s.download.reject }
        else Install.cleanup { s with request := .over }
      else s
    | .chunk b =>
      if s.request = .body then { s with tarball := s.tarball.map (· ++ b) } else s
    | .finish =>
      if s.request = .body then
        Install.settle { s with request := .over, download := s.download.resolve }
      else s
    | .cutOff => if s.request = .body then { s with request := .over } else s
    | .writeError => if s.request = .body then { s with pc := .exited 1 } else s
    | .requestError =>
      if s.request = .waiting then Install.cleanup { s with request := .over } else s
    | .lateError => s.cleanup
    | .cleanedUp ok =>
      if 0 < s.cleanups then
        Install.settle { s with
          cleanups := s.cleanups - 1
          tarball := if ok then none else s.tarball
          download := s.download.reject }
      else s
    | .read ok =>
      match pc with
      | .checking =>
        match expected with
        | none => { s with pc := .discarding }
        | some digest =>
          if digest = "" then { s with pc := .discarding } else
          match (if ok then s.tarball else none) with
          | none => { s with pc := .discarding }
          | some b => if digest = sha256 b then { s with pc := .unpacking }
            else { s with pc := .discarding }
      | _ => s
    | .unlinked ok =>
      match pc with
      | .discarding => { s with tarball := if ok then none else s.tarball, pc := .exited 1 }
      | .finishing false c =>
        if ok then Install.finishing { s with tarball := none } true c
        else { s with pc := .exited 1 }
      | _ => s
    | .noTar => match pc with
      | .unpacking => { s with pc := .exited 1 }
      | _ => s
    | .tar code => match pc with
      | .unpacking =>
        match s.tarball with
        | none => { s with pc := .exited 1 }
        | some b =>
          if code = 0 then { s with unpacked := s.unpacked ++ [b], pc := .finishing false false }
          else { s with unpacked := s.unpacked ++ [b], pc := .exited 1 }
      | _ => s
    | .chmod ok => match pc with
      | .finishing u false =>
        if ok then Install.finishing { s with executable := true } u true
        else { s with pc := .exited 1 }
      | _ => s
    | .idle => match pc with
      | .downloading =>
        if s.binDir ≠ .pending ∧ s.request = .over ∧ s.cleanups = 0 then { s with pc := .drained }
        else s
      | _ => s

/-- postinstall.js:94-101: the beginning of `main`; `left` is what an earlier installation may have left
in the current directory. -/
def Install.start (platform arch : String) (left : Option Bytes) : Install :=
  ⟨left, .pending, .pending, .waiting, 0, [], false,
    if (getTarget platform arch).isSome then .downloading else .exited 1⟩

/-- A run of postinstall.js; `checksums` is the `checksumConfig` of package.json. -/
def Install.run (sha256 : Bytes → String) (checksums : String → Option String)
    (platform arch : String) (left : Option Bytes) (es : List InstallEvent) : Install :=
  es.foldl (Install.step sha256 ((getTarget platform arch).bind checksums))
    (Install.start platform arch left)

/-! ### download.js -/

/-- download.js:85-121: where the script is. -/
inductive FetchPc where
  /-- Waiting for the answer. -/
  | waiting
  /-- Line 110: the body is piped to the file. -/
  | body
  /-- Lines 93-98: inside `cleanup`. -/
  | cleaning
  /-- The connection broke after the answer had begun. -/
  | broken
  /-- Line 120, or the end of the script. -/
  | exited (code : Nat)
  deriving DecidableEq, Repr

/-- The state of a schema download. -/
structure Fetch where
  /-- The file the schema goes to. -/
  file : Option Bytes
  /-- Whether the open of line 92 has happened. -/
  opened : Bool
  /-- Ghost: the part of the body that was written, in order. -/
  received : Bytes
  pc : FetchPc
  deriving DecidableEq, Repr

/-- What can happen during a schema download. -/
inductive FetchEvent where
  /-- The file was opened, which empties it, or could not be opened (no `error` handler: Node exits). -/
  | opened (ok : Bool)
  | respond (status : Nat)
  /-- Part of the body was written. -/
  | chunk (bytes : Bytes)
  | finish
  | cutOff
  | writeError
  /-- The request failed. -/
  | requestError
  /-- The `unlink` of line 94 returned. -/
  | unlinked (ok : Bool)
  /-- Node finds nothing left to wait for. -/
  | idle
  deriving DecidableEq, Repr

/-- download.js:92-121: one event. -/
def Fetch.step (s : Fetch) (e : FetchEvent) : Fetch :=
  match s.pc with
  | .exited _ => s
  | pc =>
    match e with
    | .opened ok =>
      if s.opened then s
      else if ok then { s with file := some [], opened := true }
      else { s with pc := .exited 1 }
    | .respond status => match pc with
      | .waiting => if status = 200 then { s with pc := .body } else { s with pc := .cleaning }
      | _ => s
    | .chunk b => match pc with
      | .body => if s.opened then
          { s with file := s.file.map (· ++ b), received := s.received ++ b }
        else s
      | _ => s
    | .finish => match pc with
      | .body => if s.opened then { s with pc := .exited 0 } else s
      | _ => s
    | .cutOff => match pc with
      | .body => { s with pc := .broken }
      | _ => s
    | .writeError => { s with pc := .exited 1 }
    | .requestError => match pc with
      | .waiting | .body | .broken => { s with pc := .cleaning }
      | _ => s
    | .unlinked ok => match pc with
      | .cleaning => { s with file := if ok then none else s.file, pc := .exited 1 }
      | _ => s
    | .idle => match pc with
      | .broken => if s.opened then { s with pc := .exited 0 } else s
      | _ => s

/-- download.js:85-105: the beginning.  `endpoint` is the first argument; `urlOk` says whether `new URL`
and `request` take it.  Line 92 has asked for the file to be opened, but the script ends before that is
known to have happened if they do not. -/
def Fetch.start (endpoint : Option String) (urlOk : Bool) (old : Option Bytes) : Fetch :=
  match endpoint with
  | none | some "" => ⟨old, false, [], .exited 1⟩
  | some _ => ⟨old, false, [], if urlOk then .waiting else .exited 1⟩

/-- A run of download.js. -/
def Fetch.run (endpoint : Option String) (urlOk : Bool) (old : Option Bytes) (es : List FetchEvent) :
    Fetch :=
  es.foldl Fetch.step (Fetch.start endpoint urlOk old)

/-! ### The introspection query -/

/-- A selected field.  `withDeprecated`: it has the argument `includeDeprecated: true`, the only argument
the query uses. -/
inductive Ask where
  | mk (field : String) (withDeprecated : Bool) (items : List Ask)

/-- A selected field without arguments. -/
abbrev ask (field : String) (items : List Ask) : Ask := .mk field false items

/-- download.js:51-82 `TypeRef`: `n` further levels of `ofType`. -/
def askTypeRef : Nat → List Ask
  | 0 => [ask "kind" [], ask "name" []]
  | n + 1 => [ask "kind" [], ask "name" [], ask "ofType" (askTypeRef n)]

/-- download.js:45-50 `InputValue`. -/
def askInputValue : List Ask :=
  [ask "name" [], ask "description" [], ask "type" (askTypeRef 7), ask "defaultValue" []]

/-- download.js:17-44 `FullType`. -/
def askFullType : List Ask :=
  [ask "kind" [], ask "name" [], ask "description" [],
    .mk "fields" true [ask "name" [], ask "description" [], ask "args" askInputValue,
      ask "type" (askTypeRef 7)],
    ask "inputFields" askInputValue, ask "interfaces" (askTypeRef 7),
    .mk "enumValues" true [ask "name" [], ask "description" []], ask "possibleTypes" (askTypeRef 7)]

/-- download.js:6-83 `introspectionQuery`. -/
def introspectionQuery : List Ask :=
  [ask "__schema" [ask "queryType" [ask "name" []], ask "mutationType" [ask "name" []],
    ask "subscriptionType" [ask "name" []], ask "types" askFullType]]

/-! ### The library of document types -/

/-- typed-documentnode.d.ts:6-36: the exported document types with the number of their type parameters,
each of which is constrained to `BasicObject = Record<string, unknown>`.  (`DataOf` and `VariablesOf` are
not used by generated files.) -/
def libraryTypes : List (String × Nat) :=
  [("QueryDocumentNode", 2), ("SubscriptionDocumentNode", 2), ("MutationDocumentNode", 2),
    ("FragmentDocumentNode", 1)]

end Qlc
