import Verif.Model.Sequence
/-! # The default constructors of s_sequence.hpp -/
namespace Sliced

/-- s_sequence.hpp:10-14, the default constructor (`nullptr` is address 0) -/
def SSeq.empty : SSeq := { chunks := 0, pointers := 0, header := 0, data := 0 }

/-- s_sequence.hpp:60-65, the default constructor of the iterator -/
def It.empty : It := { pointers := 0, header := 0, data := 0, begin_ := 0, end_ := 0 }

end Sliced
