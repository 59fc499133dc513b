import Verif.Storage.BatchModel
import Verif.Num.Props

/-!
# What a service does with batches, and where files are

Of the model only the types are used, and the names in requests.
-/

namespace Verif.Batch.Spec

/-- The file of a name below a path. -/
def file (path name : Str) : Str := if path = [47] then 47 :: name else path ++ 47 :: name

/-- The object that a name in a request is of: a key of S3 has no slash in front. -/
def object (kind : Kind) (wire : Str) : Str := match kind with
  | .s3 => 47 :: wire
  | _ => wire

/-- The request was done: the file was removed, or was not there. -/
def Done (code : Nat) : Prop := (200 ≤ code ∧ code ≤ 299) ∨ code = 404

/-- What an answer says of the requests that were sent, where `Gone` is what is not there. Azure answers in the order of the requests, GCS says which request a part is for,
S3 says only what was not removed. -/
def Says (kind : Kind) (sent : List Str) (Gone : Str → Prop) (r : Reply) : Prop :=
  match kind, r with
  | .azure, .parts ps => ∀ (i : Nat) k, sent[i]? = some k → Gone k ∨ ∃ p : Part, ps[i]? = some p ∧ ¬Done p.code
  | .gcs, .parts ps => ∀ (i : Nat) k, sent[i]? = some k → Gone k ∨ ∃ p ∈ ps, ¬Done p.code ∧
      ∃ s, p.id = some ("response-".toUTF8.toList ++ s) ∧ Num.Numeral 10 s i ∧ i < 2 ^ 32
  | .s3, .errors ks => (∀ k ∈ sent, Gone (47 :: k) ∨ k ∈ ks) ∧ ∀ k ∈ ks, k ∈ sent
  | _, _ => True

/-- A service: it removes nothing that it was not asked to remove, and says what it did not remove. `There` is what is on it. -/
structure Honest {σ : Type} (kind : Kind) (svc : Svc σ) (There : σ → Str → Prop) : Prop where
  batchNew : ∀ w ks x, There (svc.batch w ks).1 x → There w x
  batchOnly : ∀ w ks x, There w x → ¬There (svc.batch w ks).1 x → ∃ k ∈ ks, x = object kind k
  batchSays : ∀ w ks r, (svc.batch w ks).2 = .ok r → Says kind ks (fun k => ¬There (svc.batch w ks).1 k) r
  removeNew : ∀ w k x, There (svc.remove w k).1 x → There w x
  removeOnly : ∀ w k x, There w x → ¬There (svc.remove w k).1 x → x = k
  removeSays : ∀ w k, (svc.remove w k).2 = .ok () → ¬There (svc.remove w k).1 k

/-- A service without failures: batches and removals are answered, and an answer has the form it should have. -/
structure Working {σ : Type} (kind : Kind) (svc : Svc σ) : Prop where
  batch : ∀ w ks, ks ≠ [] → ∃ r, (svc.batch w ks).2 = .ok r ∧
    match kind, r with
    | .azure, .parts ps => ps ≠ [] ∧ ps.length ≤ ks.length
    | .gcs, .parts ps => ps ≠ [] ∧ ∀ p ∈ ps, ¬Done p.code → ∃ s i, p.id = some ("response-".toUTF8.toList ++ s) ∧ Num.Numeral 10 s i ∧ i < ks.length ∧ i < 2 ^ 32
    | .s3, .errors _ => True
    | _, _ => False
  remove : ∀ w k, (svc.remove w k).2 = .ok ()

/-- A service that keeps the batches that it gets. -/
def logged {σ : Type} (svc : Svc σ) : Svc (σ × List (List Str)) where
  batch := fun (w, l) ks => (((svc.batch w ks).1, l ++ [ks]), (svc.batch w ks).2)
  remove := fun (w, l) k => (((svc.remove w k).1, l), (svc.remove w k).2)

end Verif.Batch.Spec
