import Verif.Num.Model

/-!
# Removing a path on an object store

Model of the removal of paths in `src/storage/azure/storage.c`, `src/storage/gcs/storage.c` and `src/storage/s3/storage.c` (lines are of these files): what is listed is removed in
batches, a batch is sent while the next is collected, and what a batch did not remove is removed again one at a time.

Simplifications:

* the listing is a list of entries (C72 to C74 are about listings), it is complete before the first callback;
* the service is two functions on a state: what it does with a batch and what it answers, and what it does with one removal. It does what it does with a batch when it is sent;
* an answer to a batch is what was read of it (C76 for Azure and GCS): for each part the code and the `content-id`, for S3 the keys of the errors. An error of the whole request is an
  error of the answer. That missing files are not an error for a single removal (`allowMissing`) is part of the service;
* statistics and memory are not there.
-/

namespace Verif.Batch

abbrev Str := List UInt8

inductive Kind where
  | azure | gcs | s3
  deriving DecidableEq, Repr

/-- A part of an answer. -/
structure Part where
  code : Nat
  id : Option Str
  deriving DecidableEq, Repr

inductive Reply where
  | parts (ps : List Part)
  | errors (keys : List Str)
  deriving DecidableEq, Repr

/-- A service. -/
structure Svc (σ : Type) where
  batch : σ → List Str → σ × Res Reply
  remove : σ → Str → σ × Res Unit

/-- An entry of a listing (`StorageInfo`). -/
structure Info where
  name : Str
  file : Bool
  deriving DecidableEq, Repr

/-- `httpResponseCodeOk` (`src/common/io/http/response.h` 86-89) or `HTTP_RESPONSE_CODE_NOT_FOUND` -/
def fine (code : Nat) : Bool := code / 100 == 2 || code == 404

/-- `GCS_HEADER_CONTENTID_RESPONSE` (gcs 968) -/
def idPrefix : Str := [114, 101, 115, 112, 111, 110, 115, 101, 45]

/-- The loop over the parts (azure 821-841). -/
def azureParts {σ : Type} (svc : Svc σ) (sent : List Str) : Nat → List Part → σ → σ × Res Unit
  | _, [], w => (w, .ok ())
  | idx, p :: ps, w =>
    if fine p.code = false then
      match sent[idx]? with
      | none => (w, .error .format)
      | some path =>
        match svc.remove w path with
        | (w, .error e) => (w, .error e)
        | (w, .ok ()) => azureParts svc sent (idx + 1) ps w
    else azureParts svc sent (idx + 1) ps w

/-- Which request a part is an answer to (gcs 1009-1018). -/
def gcsFind (sent : List Str) (p : Part) : Res Str :=
  match p.id with
  | none => .error .format
  | some id =>
    if idPrefix <+: id then do
      let idx ← Num.toUIntBase 10 (id.drop idPrefix.length)
      match sent[idx]? with
      | none => .error .assert
      | some object => .ok object
    else .error .format

/-- The loop over the parts (gcs 1003-1030). -/
def gcsParts {σ : Type} (svc : Svc σ) (sent : List Str) : List Part → σ → σ × Res Unit
  | [], w => (w, .ok ())
  | p :: ps, w =>
    if fine p.code = false then
      match gcsFind sent p with
      | .error e => (w, .error e)
      | .ok object =>
        match svc.remove w object with
        | (w, .error e) => (w, .error e)
        | (w, .ok ()) => gcsParts svc sent ps w
    else gcsParts svc sent ps w

/-- The loop over the errors (s3 1131-1139). -/
def s3Errors {σ : Type} (svc : Svc σ) : List Str → σ → σ × Res Unit
  | [], w => (w, .ok ())
  | k :: ks, w =>
    match svc.remove w (47 :: k) with
    | (w, .error e) => (w, .error e)
    | (w, .ok ()) => s3Errors svc ks w

/-- Get response for async request (azure 806-844, gcs 992-1033, s3 1121-1141). -/
def answer {σ : Type} (svc : Svc σ) (kind : Kind) (sent : List Str) (reply : Res Reply) (w : σ) : σ × Res Unit :=
  match reply with
  | .error e => (w, .error e)
  | .ok r =>
    match kind, r with
    | .azure, .parts ps => if ps = [] then (w, .error .format) else azureParts svc sent 0 ps w
    | .gcs, .parts ps => if ps = [] then (w, .error .format) else gcsParts svc sent ps w
    | .s3, .errors ks => s3Errors svc ks w
    | _, _ => (w, .error .format)

/-- `StorageAzurePathRemoveData` (azure 783-791) and those of the others: the request that was sent with what will be answered, and the list that is being built. -/
structure Data where
  request : Option (List Str × Res Reply)
  content : Option (List Str)

/-- Send new async request if there is more to remove (azure 854-873, gcs 1043-1058, s3 1147-1159). -/
def send {σ : Type} (svc : Svc σ) (w : σ) (d : Data) : σ × Res Data :=
  match d.content with
  | none => (w, .ok d)
  | some c => ((svc.batch w c).1, .ok ⟨some (c, (svc.batch w c).2), none⟩)

/-- `storageAzurePathRemoveInternal` (azure 793-876), `storageGcsPathRemoveInternal` (gcs 979-1061), `storageS3PathRemoveInternal` (s3 1109-1162) -/
def removeInternal {σ : Type} (svc : Svc σ) (kind : Kind) (w : σ) (d : Data) : σ × Res Data :=
  match d.request with
  | none => send svc w d
  | some (sent, reply) =>
    match answer svc kind sent reply w with
    | (w, .error e) => (w, .error e)
    | (w, .ok ()) => send svc w { d with request := none }

/-- How a file is named in a request (azure 906 and 943, gcs 1092 and 1129, s3 1198 and 1243). The key of S3 has no slash in front. -/
def wireName (kind : Kind) (path name : Str) : Str :=
  match kind with
  | .s3 => (if path = [47] then [] else path.drop 1 ++ [47]) ++ name
  | _ => (if path = [47] then [] else path) ++ [47] ++ name

/-- `storageAzurePathRemoveCallback` (azure 878-918), `storageGcsPathRemoveCallback` (gcs 1064-1104), `storageS3PathRemoveCallback` (s3 1165-1222) -/
def callback {σ : Type} (svc : Svc σ) (kind : Kind) (max : Nat) (path : Str) (w : σ) (d : Data) (info : Info) : σ × Res Data :=
  if info.file then
    let c := d.content.getD [] ++ [wireName kind path info.name]
    let d := { d with content := some c }
    if c.length = max then removeInternal svc kind w d else (w, .ok d)
  else (w, .ok d)

def callbacks {σ : Type} (svc : Svc σ) (kind : Kind) (max : Nat) (path : Str) : List Info → σ → Data → σ × Res Data
  | [], w, d => (w, .ok d)
  | i :: is, w, d =>
    match callback svc kind max path w d i with
    | (w, .error e) => (w, .error e)
    | (w, .ok d) => callbacks svc kind max path is w d

/-- `storageAzurePathRemove` (azure 920-960), `storageGcsPathRemove` (gcs 1106-1147), `storageS3PathRemove` (s3 1224-1258) -/
def pathRemove {σ : Type} (svc : Svc σ) (kind : Kind) (max : Nat) (path : Str) (is : List Info) (w : σ) : σ × Res Unit :=
  match callbacks svc kind max path is w ⟨none, none⟩ with
  | (w, .error e) => (w, .error e)
  | (w, .ok d) =>
    match (if d.content.isSome then removeInternal svc kind w d else (w, .ok d)) with
    | (w, .error e) => (w, .error e)
    | (w, .ok d) =>
      match removeInternal svc kind w d with
      | (w, .error e) => (w, .error e)
      | (w, .ok _) => (w, .ok ())

end Verif.Batch
