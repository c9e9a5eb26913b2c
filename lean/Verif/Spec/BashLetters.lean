import Verif.Model.Py
/-!
# Letters of options that stand for themselves in brackets (specification)
-/

namespace CC

/-- A letter that stands for itself between `[` and `]` in a pattern, at every place. -/
def PlainLetter (c : Char) : Prop := c ∉ S " \t\n$`&;<>#~|()[]\\'\"-!^"

end CC
