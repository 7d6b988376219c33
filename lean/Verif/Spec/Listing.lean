import Verif.Model.Listing

/-! Specification of the content of the directory of a collection. -/

namespace Verif.Spec

open Listing

/-- Name of the directory of the value `v` of the key `k`. -/
def dirName (fmt : Int → List Char) (k : String) (v : Int) : List Char :=
  k.toList ++ '=' :: fmt v

/-- Below `n` the partition with the given keys is stored. -/
def Stored (fmt : Int → List Char) : List String → Node → List (String × Int) → Prop
  | [], _, kvs => kvs = []
  | k :: ks, n, kvs => ∃ es v c t, n = .dir es ∧ (dirName fmt k v, c) ∈ es ∧
      kvs = (k, v) :: t ∧ Stored fmt ks c t

/-- Below `n` there are only directories of partitions (the content of the partitions
themselves is free). -/
def Layout (fmt : Int → List Char) : List String → Node → Prop
  | [], _ => True
  | k :: ks, n => ∃ es, n = .dir es ∧ (es.map (·.1)).Nodup ∧
      ∀ e ∈ es, ∃ v, e.1 = dirName fmt k v ∧ Layout fmt ks e.2

/-- The root may also contain files (not named as partitions) and hidden directories. -/
def RootLayout (fmt : Int → List Char) (k : String) (ks : List String) (n : Node) : Prop :=
  ∃ es, n = .dir es ∧ (es.map (·.1)).Nodup ∧
    ∀ e ∈ es, (e.2 = .file ∧ ∀ v, e.1 ≠ dirName fmt k v) ∨ (∃ t, e.1 = '.' :: t) ∨
      (e.2.isDir = true ∧ ∃ v, e.1 = dirName fmt k v ∧ Layout fmt ks e.2)

/-- The path of a partition. -/
def partitionPath (fmt : Int → List Char) (base : List Char) (kvs : List (String × Int)) :
    List Char :=
  base ++ '/' :: Path.joinWith fmt ['/'] kvs

/-- The values of the keys. -/
def values (kvs : List (String × Int)) : List Int := kvs.map (·.2)

end Verif.Spec
