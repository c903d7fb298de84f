import Verif.Model.FeatureNames
/-!
What features a text or a list of options names.
-/
namespace Casync.FeatureNamesSpec
open Casync Flags FeatureNames

/-- The words of a text, separated by single blanks. -/
def words : Bytes → List Bytes
  | [] => [[]]
  | b :: r => if b = 32 then [] :: words r else match words r with | w :: ws => (b :: w) :: ws | [] => [[b]]

/-- The option value `name` stands for a set of features with feature `i` in it. -/
def Stands (name : Bytes) (i : Nat) : Prop := ∃ u, parseOne featureMap name = .ok u ∧ u.getLsbD i = true

/-- Feature `i` is wanted: named by a `--with=`, or one of the default if there is no `--with=`, and named by no `--without=`. -/
def Wanted (opts : List Option_) (dflt : Word) (i : Nat) : Prop :=
  ((∃ n, .with_ n ∈ opts ∧ Stands n i) ∨ ((∀ n, .with_ n ∉ opts) ∧ dflt.getLsbD i = true)) ∧ ∀ n, .without n ∈ opts → ¬ Stands n i

end Casync.FeatureNamesSpec
