import Verif.Model.Get
/-
Tests, not proofs: the unit tests of the repository (src/test.rs, src/util.rs,
src/pretty.rs, README.md), run against the model by kernel evaluation. They
check that the model was transcribed correctly. The tests that read
testfiles/twitter.json are left out (file size).
-/
namespace Gjson.Tests

/-- `get(json, path).json()` -/
def getJson (json path : Bytes) : Res Bytes := do .ok (← get json path).json
/-- `get(json, path).str()` -/
def getStr (json path : Bytes) : Res Bytes := do (← get json path).str
/-- `get(json, path).i32()` -/
def getI32 (json path : Bytes) : Res Int := do (← get json path).i32

-- test.rs:64-91 (modifiers)
def users : Bytes := b!"{\"user\":[
        {\"first\":\"tom\",\"age\":72},
        {\"last\":\"anderson\",\"age\":68}
    ]}"
example : getJson users b!"user.@join.@ugly"
    = .ok b!"{\"first\":\"tom\",\"age\":68,\"last\":\"anderson\"}" := by decide +kernel
example : getJson users b!"user.@join:{\"preserve\":true}.@ugly"
    = .ok b!"{\"first\":\"tom\",\"age\":72,\"last\":\"anderson\",\"age\":68}" := by decide +kernel
example : getJson b!"[1,[2],[3,4],[5,[6,7]]]" b!"@flatten" = .ok b!"[1,2,3,4,5,[6,7]]" := by
  decide +kernel
example : getJson b!"[1,[2],[3,4],[5,[6,7]]]" b!"@flatten:{\"deep\":true}"
    = .ok b!"[1,2,3,4,5,6,7]" := by decide +kernel

-- test.rs:155-166 (query)
def friends : Bytes := b!"{
        \"friends\": [
            {\"first\": \"Dale\", \"last\": \"Murphy\", \"age\": 44, \"nets\": [{\"net\":\"ig\"}, \"fb\", \"tw\"]},
            {\"first\": \"Roger\", \"last\": \"Craig\", \"age\": 68, \"nets\": [\"fb\", \"tw\"]},
            {\"first\": \"Jane\", \"last\": \"Murphy\", \"age\": 47, \"nets\": [\"ig\", \"tw\"]}
            ]
        }
        "
example : getJson friends b!"frie\\nds.#(ne\\ts.#(ne\\t=ig)).@ugly"
    = .ok b!"{\"first\":\"Dale\",\"last\":\"Murphy\",\"age\":44,\"nets\":[{\"net\":\"ig\"},\"fb\",\"tw\"]}" := by
  decide +kernel

-- test.rs:199-215 (jsonlines)
def lines : Bytes := b!"
        {\"a\": 1 }
        {\"a\": 2 }
        true
        false
        4
    "
example : getI32 lines b!"..#" = .ok 5 := by decide +kernel
example : getI32 lines b!"..0.a" = .ok 1 := by decide +kernel
example : getI32 lines b!"..1.a" = .ok 2 := by decide +kernel
example : getJson lines b!"..#.@this|@ugly" = .ok b!"[{\"a\":1},{\"a\":2},true,false,4]" := by
  decide +kernel
example : getJson lines b!"..#.@this|@join|@ugly" = .ok b!"{\"a\":2}" := by decide +kernel

-- test.rs:279-302 (array_value)
def programmers : Bytes := b!"
    {
        \"programmers\": [
          {
            \"firstName\": \"Janet\",
            \"lastName\": \"McLaughlin\",
          }, {
            \"firstName\": \"Elliotte\",
            \"lastName\": \"Hunter\",
          }, {
            \"firstName\": \"Jason\",
            \"lastName\": \"Harold\",
          }
        ]
      }
    "
example : (do
    let v ← get programmers b!"programmers.#.lastName"
    let a ← v.array
    a.mapM Value.str) = .ok [b!"McLaughlin", b!"Hunter", b!"Harold"] := by decide +kernel
-- README.md:252
example : getStr programmers b!"programmers.#(lastName=Hunter).firstName" = .ok b!"Elliotte" := by
  decide +kernel

-- test.rs:305-322 (escaped_query_string)
def escQ : Bytes := b!"
    {
        \"friends\": [
          {\"first\": \"Dale\", \"last\": \"Mur\\\"phy\", \"age\": 44, \"nets\": [\"ig\", \"fb\", \"tw\"]},
          {\"first\": \"Roger\", \"last\": \"Craig\", \"age\": 68, \"nets\": [\"fb\", \"tw\"]},
          {\"first\": \"Jane\", \"last\": \"Murphy\", \"age\": 47, \"nets\": [\"ig\", \"tw\"]}
        ]
      }
    }
    "
example : getI32 escQ b!"friends.#(last=\"Mur\\\"phy\").age" = .ok 44 := by decide +kernel
example : getI32 escQ b!"friends.#(last=\"Murphy\").age" = .ok 47 := by decide +kernel

-- test.rs:326-345 (bool_convert_query)
def vals : Bytes := b!"
    {
		\"vals\": [
			{ \"a\": 1, \"b\": true },
			{ \"a\": 2, \"b\": true },
			{ \"a\": 3, \"b\": false },
			{ \"a\": 4, \"b\": \"0\" },
			{ \"a\": 5, \"b\": 0 },
			{ \"a\": 6, \"b\": \"1\" },
			{ \"a\": 7, \"b\": 1 },
			{ \"a\": 8, \"b\": \"true\" },
			{ \"a\": 9, \"b\": false },
			{ \"a\": 10, \"b\": null },
			{ \"a\": 11 }
		]
	}
    "
example : getJson vals b!"vals.#(b==~true)#.a" = .ok b!"[1,2,6,7,8]" := by decide +kernel

-- README.md:64-102
def readme : Bytes := b!"{
  \"name\": {\"first\": \"Tom\", \"last\": \"Anderson\"},
  \"age\":37,
  \"children\": [\"Sara\",\"Alex\",\"Jack\"],
  \"fav.movie\": \"Deer Hunter\",
  \"friends\": [
    {\"first\": \"Dale\", \"last\": \"Murphy\", \"age\": 44, \"nets\": [\"ig\", \"fb\", \"tw\"]},
    {\"first\": \"Roger\", \"last\": \"Craig\", \"age\": 68, \"nets\": [\"fb\", \"tw\"]},
    {\"first\": \"Jane\", \"last\": \"Murphy\", \"age\": 47, \"nets\": [\"ig\", \"tw\"]}
  ]
}"
example : getStr readme b!"name.last" = .ok b!"Anderson" := by decide +kernel
example : getStr readme b!"age" = .ok b!"37" := by decide +kernel
example : getStr readme b!"children" = .ok b!"[\"Sara\",\"Alex\",\"Jack\"]" := by decide +kernel
example : getStr readme b!"children.#" = .ok b!"3" := by decide +kernel
example : getStr readme b!"children.1" = .ok b!"Alex" := by decide +kernel
example : getStr readme b!"child*.2" = .ok b!"Jack" := by decide +kernel
example : getStr readme b!"c?ildren.0" = .ok b!"Sara" := by decide +kernel
example : getStr readme b!"fav\\.movie" = .ok b!"Deer Hunter" := by decide +kernel
example : getStr readme b!"friends.#.first" = .ok b!"[\"Dale\",\"Roger\",\"Jane\"]" := by decide +kernel
example : getStr readme b!"friends.1.last" = .ok b!"Craig" := by decide +kernel
example : getStr readme b!"friends.#(last==\"Murphy\").first" = .ok b!"Dale" := by decide +kernel
example : getStr readme b!"friends.#(last==\"Murphy\")#.first" = .ok b!"[\"Dale\",\"Jane\"]" := by decide +kernel
example : getStr readme b!"friends.#(age>45)#.last" = .ok b!"[\"Craig\",\"Murphy\"]" := by decide +kernel
example : getStr readme b!"friends.#(first%\"D*\").last" = .ok b!"Murphy" := by decide +kernel
example : getStr readme b!"friends.#(first!%\"D*\").last" = .ok b!"Craig" := by decide +kernel
example : getStr readme b!"friends.#(nets.#(==\"fb\"))#.first" = .ok b!"[\"Dale\",\"Roger\"]" := by decide +kernel
example : getStr readme b!"children|@reverse" = .ok b!"[\"Jack\",\"Alex\",\"Sara\"]" := by decide +kernel
example : getStr readme b!"children|@reverse|0" = .ok b!"Jack" := by decide +kernel
example : getStr readme b!"{counts:[children.#,friends.#],name.first,children.@reverse}"
    = .ok b!"{\"counts\":[3,3],\"first\":\"Tom\",\"@reverse\":[\"Jack\",\"Alex\",\"Sara\"]}" := by decide +kernel

-- pretty.rs:479-560
def examplePretty : Bytes := b!"{
  \"name\": {
    \"last\": \"Sanders\",
    \"first\": \"Janet\"
  },
  \"children\": [\"Andy\", \"Carol\", \"Mike\"],
  \"values\": [
    10.10,
    true,
    false,
    null,
    \"hello\",
    {
      \"a\": \"b\",
      \"c\": \"d\"
    },
    []
  ],
  \"values2\": {},
  \"values3\": [],
  \"deep\": {
    \"deep\": {
      \"deep\": [1, 2, 3, 4, 5]
    }
  }
}
"
def exampleUgly : Bytes := b!"{\"name\":{\"last\":\"Sanders\",\"first\":\"Janet\"},\"children\":[\"Andy\",\"Carol\",\"Mike\"],\"values\":[10.10,true,false,null,\"hello\",{\"a\":\"b\",\"c\":\"d\"},[]],\"values2\":{},\"values3\":[],\"deep\":{\"deep\":{\"deep\":[1,2,3,4,5]}}}"
example : ugly examplePretty = .ok exampleUgly := by decide +kernel
example : pretty exampleUgly = .ok examplePretty := by decide +kernel
def exampleSorted : Bytes := b!"	{
	   \"children\": [
	      \"Andy\",
	      \"Carol\",
	      \"Mike\"
	   ],
	   \"deep\": {
	      \"deep\": {
	         \"deep\": [
	            1,
	            2,
	            3,
	            4,
	            5
	         ]
	      }
	   },
	   \"name\": {
	      \"first\": \"Janet\",
	      \"last\": \"Sanders\"
	   },
	   \"values\": [
	      10.10,
	      true,
	      false,
	      null,
	      \"hello\",
	      {
	         \"a\": \"b\",
	         \"c\": \"d\"
	      },
	      []
	   ],
	   \"values2\": {},
	   \"values3\": []
	}
"
example : prettyOptions exampleUgly ⟨10, b!"\t", b!"   ", true⟩ = .ok exampleSorted := by decide +kernel
example : (do ugly (← prettyOptions b!"{\"hello\":\"JELLO\",\"hello\":\"HELLO\"}" ⟨80, [], b!"  ", true⟩))
    = .ok b!"{\"hello\":\"JELLO\",\"hello\":\"HELLO\"}" := by decide +kernel

-- util.rs:215-285, valid.rs tests
example : valid b!"0" = .ok true := by decide +kernel
example : valid b!"00" = .ok false := by decide +kernel
example : valid b!"-00" = .ok false := by decide +kernel
example : valid b!"-." = .ok false := by decide +kernel
example : valid b!"-.123" = .ok false := by decide +kernel
example : valid b!"0.0" = .ok true := by decide +kernel
example : valid b!"10.0" = .ok true := by decide +kernel
example : valid b!"10e1" = .ok true := by decide +kernel
example : valid b!"10EE" = .ok false := by decide +kernel
example : valid b!"10E-" = .ok false := by decide +kernel
example : valid b!"10E+" = .ok false := by decide +kernel
example : valid b!"10E123" = .ok true := by decide +kernel
example : valid b!"10E-123" = .ok true := by decide +kernel
example : valid b!"10E-0123" = .ok true := by decide +kernel
example : valid b!"" = .ok false := by decide +kernel
example : valid b!" " = .ok false := by decide +kernel
example : valid b!"{}" = .ok true := by decide +kernel
example : valid b!"{" = .ok false := by decide +kernel
example : valid b!"-" = .ok false := by decide +kernel
example : valid b!"-1" = .ok true := by decide +kernel
example : valid b!"-1." = .ok false := by decide +kernel
example : valid b!"-1.0" = .ok true := by decide +kernel
example : valid b!" -1.0" = .ok true := by decide +kernel
example : valid b!" -1.0 " = .ok true := by decide +kernel
example : valid b!"-1.0 " = .ok true := by decide +kernel
example : valid b!"-1.0 i" = .ok false := by decide +kernel
example : valid b!"-1.0 i" = .ok false := by decide +kernel
example : valid b!"true" = .ok true := by decide +kernel
example : valid b!" true" = .ok true := by decide +kernel
example : valid b!" true " = .ok true := by decide +kernel
example : valid b!" True " = .ok false := by decide +kernel
example : valid b!" tru" = .ok false := by decide +kernel
example : valid b!"false" = .ok true := by decide +kernel
example : valid b!" false" = .ok true := by decide +kernel
example : valid b!" false " = .ok true := by decide +kernel
example : valid b!" False " = .ok false := by decide +kernel
example : valid b!" fals" = .ok false := by decide +kernel
example : valid b!"null" = .ok true := by decide +kernel
example : valid b!" null" = .ok true := by decide +kernel
example : valid b!" null " = .ok true := by decide +kernel
example : valid b!" Null " = .ok false := by decide +kernel
example : valid b!" nul" = .ok false := by decide +kernel
example : valid b!" []" = .ok true := by decide +kernel
example : valid b!" [true]" = .ok true := by decide +kernel
example : valid b!" [ true, null ]" = .ok true := by decide +kernel
example : valid b!" [ true,]" = .ok false := by decide +kernel
example : valid b!"{\"hello\":\"world\"}" = .ok true := by decide +kernel
example : valid b!"{ \"hello\": \"world\" }" = .ok true := by decide +kernel
example : valid b!"{ \"hello\": \"world\", }" = .ok false := by decide +kernel
example : valid b!"{\"a\":\"b\",}" = .ok false := by decide +kernel
example : valid b!"{\"a\":\"b\",\"a\"}" = .ok false := by decide +kernel
example : valid b!"{\"a\":\"b\",\"a\":}" = .ok false := by decide +kernel
example : valid b!"{\"a\":\"b\",\"a\":1}" = .ok true := by decide +kernel
example : valid b!"{\"a\":\"b\",2\"1\":2}" = .ok false := by decide +kernel
example : valid b!"{\"a\":\"b\",\"a\": 1, \"c\":{\"hi\":\"there\"} }" = .ok true := by decide +kernel
example : valid b!"{\"a\":\"b\",\"a\": 1, \"c\":{\"hi\":\"there\", \"easy\":[\"going\",{\"mixed\":\"bag\"}]} }" = .ok true := by decide +kernel
example : valid b!"\"\"" = .ok true := by decide +kernel
example : valid b!"\"" = .ok false := by decide +kernel
example : valid b!"\"\\n\"" = .ok true := by decide +kernel
example : valid b!"\"\\\"" = .ok false := by decide +kernel
example : valid b!"\"\\\\\"" = .ok true := by decide +kernel
example : valid b!"\"a\\\\b\"" = .ok true := by decide +kernel
example : valid b!"\"a\\\\b\\\\\\\"a\"" = .ok true := by decide +kernel
example : valid b!"\"a\\\\b\\\\\\uFFAAa\"" = .ok true := by decide +kernel
example : valid b!"\"a\\\\b\\\\\\uFFAZa\"" = .ok false := by decide +kernel
example : valid b!"\"a\\\\b\\\\\\uFFA\"" = .ok false := by decide +kernel
example : valid b!"\"a\\\\b\\\\\\uFFAZa\"" = .ok false := by decide +kernel
example : valid b!"" = .ok false := by decide +kernel
example : valid b!"[-]" = .ok false := by decide +kernel
example : valid b!"[-.123]" = .ok false := by decide +kernel
example : valid b!"{\"hel\\lo\":\"world\"}" = .ok false := by decide +kernel
example : valid b!"{\"hello\"  " = .ok false := by decide +kernel
example : valid b!"{\"hello\"  : true " = .ok false := by decide +kernel
example : valid b!"{\"hello\"  : true x" = .ok false := by decide +kernel
example : valid b!"{\"hello\"  : true , " = .ok false := by decide +kernel
example : valid b!"[  " = .ok false := by decide +kernel
example : valid b!"[ true " = .ok false := by decide +kernel
example : valid b!"[ true x " = .ok false := by decide +kernel
example : valid b!"[ true , " = .ok false := by decide +kernel
example : valid b!"[ \"hel\x00\" ]" = .ok false := by decide +kernel
example : valid b!"[ \"hel\\" = .ok false := by decide +kernel
example : valid b!"[ \"hel\\u" = .ok false := by decide +kernel
example : valid b!"[ 123.x ]" = .ok false := by decide +kernel
example : valid b!"[ 123.0e" = .ok false := by decide +kernel
example : valid b!"[ 123.0e1f" = .ok false := by decide +kernel
example : pmatch b!"*" b!"" = .ok true := by decide +kernel
example : pmatch b!"" b!"" = .ok true := by decide +kernel
example : pmatch b!"" b!"hello world" = .ok false := by decide +kernel
example : pmatch b!"jello world" b!"hello world" = .ok false := by decide +kernel
example : pmatch b!"*" b!"hello world" = .ok true := by decide +kernel
example : pmatch b!"*world*" b!"hello world" = .ok true := by decide +kernel
example : pmatch b!"*world" b!"hello world" = .ok true := by decide +kernel
example : pmatch b!"hello*" b!"hello world" = .ok true := by decide +kernel
example : pmatch b!"jello*" b!"hello world" = .ok false := by decide +kernel
example : pmatch b!"hello?world" b!"hello world" = .ok true := by decide +kernel
example : pmatch b!"jello?world" b!"hello world" = .ok false := by decide +kernel
example : pmatch b!"he*o?world" b!"hello world" = .ok true := by decide +kernel
example : pmatch b!"he*o?wor*" b!"hello world" = .ok true := by decide +kernel
example : pmatch b!"he*o?*r*" b!"hello world" = .ok true := by decide +kernel
example : pmatch b!"h\\*ello" b!"h*ello" = .ok true := by decide +kernel
example : pmatch b!"hello\\" b!"hello\\" = .ok false := by decide +kernel
example : pmatch b!"hello\\?" b!"hello?" = .ok true := by decide +kernel
example : pmatch b!"hello\\\\" b!"hello\\" = .ok true := by decide +kernel
def utext : Bytes := b!"
第一印象:なんか怖っ！
今の印象:とりあえずキモい。噛み合わない
好きなところ:ぶすでキモいとこ😋✨✨
思い出:んーーー、ありすぎ😊❤️
LINE交換できる？:あぁ……ごめん✋
トプ画をみて:照れますがな😘✨
一言:お前は一生もんのダチ💖"
example : unescape b!"\"\\n第一印象:なんか怖っ！\\n今の印象:とりあえずキモい。噛み合わない\\n好きなところ:ぶすでキモいとこ😋✨✨\\n思い出:んーーー、ありすぎ😊❤️\\nLINE交換できる？:あぁ……ごめん✋\\nトプ画をみて:照れますがな😘✨\\n一言:お前は一生もんのダチ💖\"" = .ok utext := by decide +kernel
example : unescape b!"\"\\n\\u7B2C\\u4E00\\u5370\\u8C61:\\u306A\\u3093\\u304B\\u6016\\u3063\\uFF01\\n\\u4ECA\\u306E\\u5370\\u8C61:\\u3068\\u308A\\u3042\\u3048\\u305A\\u30AD\\u30E2\\u3044\\u3002\\u565B\\u307F\\u5408\\u308F\\u306A\\u3044\\n\\u597D\\u304D\\u306A\\u3068\\u3053\\u308D:\\u3076\\u3059\\u3067\\u30AD\\u30E2\\u3044\\u3068\\u3053\\uD83D\\uDE0B\\u2728\\u2728\\n\\u601D\\u3044\\u51FA:\\u3093\\u30FC\\u30FC\\u30FC\\u3001\\u3042\\u308A\\u3059\\u304E\\uD83D\\uDE0A\\u2764\\uFE0F\\nLINE\\u4EA4\\u63DB\\u3067\\u304D\\u308B\\uFF1F:\\u3042\\u3041\\u2026\\u2026\\u3054\\u3081\\u3093\\u270B\\n\\u30C8\\u30D7\\u753B\\u3092\\u307F\\u3066:\\u7167\\u308C\\u307E\\u3059\\u304C\\u306A\\uD83D\\uDE18\\u2728\\n\\u4E00\\u8A00:\\u304A\\u524D\\u306F\\u4E00\\u751F\\u3082\\u3093\\u306E\\u30C0\\u30C1\\uD83D\\uDC96\"" = .ok utext := by decide +kernel
example : escape utext = b!"\"\\n第一印象:なんか怖っ！\\n今の印象:とりあえずキモい。噛み合わない\\n好きなところ:ぶすでキモいとこ😋✨✨\\n思い出:んーーー、ありすぎ😊❤️\\nLINE交換できる？:あぁ……ごめん✋\\nトプ画をみて:照れますがな😘✨\\n一言:お前は一生もんのダチ💖\"" := by decide +kernel
example : escape (b!"ad\"\\/" ++ [8, 12, 10, 13, 9, 0] ++ b!"sf") = b!"\"ad\\\"\\\\/\\b\\f\\n\\r\\t\\u0000sf\"" := by decide +kernel
example : unescape b!"\"adsf" = .ok b!"" := by decide +kernel
example : unescape b!"\"ad\\sf\"" = .ok b!"ad" := by decide +kernel
example : unescape b!"\"ad\\uD83Dsf\"" = .ok b!"ad�sf" := by decide +kernel
example : unescape b!"\"ad\\uD83D\\usf\"" = .ok b!"ad�" := by decide +kernel
example : unescape b!"\"ad\\uD83D\\uxxxxsf\"" = .ok b!"ad�sf" := by decide +kernel
example : unescape b!"\"ad\\uD83D\\u00FFsf\"" = .ok b!"ad�sf" := by decide +kernel
example : unescape b!"\"ad\\\"\\\\\\/\\b\\f\\n\\r\\tsf\"" = .ok (b!"ad\"\\/" ++ [8, 12, 10, 13, 9] ++ b!"sf") := by decide +kernel

/-! Findings 13 and 14 of DESIGN.md: multipath parts are split at the last colon
outside brackets, a last part that ends in a lone backslash is dropped, and array
indexes are read with `str::parse`. -/
example : getJson b!"[1,[2,[3]]]" b!"[@flatten]" = .ok b!"[[1,2,[3]]]" := by decide +kernel
example : getJson b!"[1,[2,[3]]]" b!"[@flatten:{\"deep\":true}]" = .ok b!"[{}]" := by decide +kernel
example : getJson b!"{\"a\":1,\"b\":2}" b!"[a,b]" = .ok b!"[1,2]" := by decide +kernel
example : getJson b!"{\"a\":1,\"b\":2}" b!"[a,b\\]" = .ok b!"[1]" := by decide +kernel
example : getJson b!"[7,8]" b!"+1" = .ok b!"8" := by decide +kernel
example : getJson b!"[7,8]" b!"01" = .ok b!"8" := by decide +kernel
example : getJson b!"[7,8]" b!"-0" = .ok b!"7" := by decide +kernel

end Gjson.Tests
